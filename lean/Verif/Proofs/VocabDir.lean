import Verif.Model.VocabMerge
import Verif.Proofs.Vocab
/-!
# The directory of partial vocabularies
-/
namespace Verif
open Spec

/-! ### Names -/

theorem IsId.no {id : Str} (h : IsId id) {c : Char} (hc : ¬ ('0' ≤ c ∧ c ≤ '9')) : c ∉ id := fun hm => hc (h.2 c hm)

theorem partvocabExt_eq : partvocabExt = '.' :: "partvocab".toList := by decide

theorem simpleName_eq (id : Str) : simpleName id = id ++ '.' :: "partvocab".toList := by
  rw [simpleName, partvocabExt_eq]

theorem simpleName_stem {id : Str} (h : IsId id) : pySplit '.' (simpleName id) = [id, "partvocab".toList] := by
  rw [simpleName_eq]
  exact pySplit_two (h.no (by decide)) (by decide)

theorem tripleName_eq (a b c : Str) : tripleName a b c = (a ++ '_' :: (b ++ '_' :: c)) ++ '.' :: "partvocab".toList := by
  rw [tripleName, partvocabExt_eq]
  simp only [List.append_assoc, List.cons_append]

theorem tripleName_stem {a b c : Str} (ha : IsId a) (hb : IsId b) (hc : IsId c) :
    pySplit '.' (tripleName a b c) = [a ++ '_' :: (b ++ '_' :: c), "partvocab".toList] := by
  rw [tripleName_eq]
  refine pySplit_two ?_ (by decide)
  have := ha.no (c := '.') (by decide)
  have := hb.no (c := '.') (by decide)
  have := hc.no (c := '.') (by decide)
  simp_all

theorem split_three {a b c : Str} (ha : IsId a) (hb : IsId b) (hc : IsId c) :
    pySplit '_' (a ++ '_' :: (b ++ '_' :: c)) = [a, b, c] := by
  have := pySplit_pyJoin (sep := '_') (l := [a, b, c]) (by simp) (by
    intro p hp
    simp at hp
    rcases hp with rfl | rfl | rfl
    · exact ha.no (by decide)
    · exact hb.no (by decide)
    · exact hc.no (by decide))
  simpa [pyJoin] using this

theorem idsOfName_triple {a b c : Str} (ha : IsId a) (hb : IsId b) (hc : IsId c) :
    idsOfName (tripleName a b c) = .ok (a, b, c) := by
  unfold idsOfName
  rw [tripleName_stem ha hb hc]
  simp only [split_three ha hb hc]

/-- The identifier of the vocabulary in a file with a given name. -/
def keyId (name : Str) : Str := ((pySplit '_' ((pySplit '.' name).headD [])).getLastD [])

theorem keyId_simple {id : Str} (h : IsId id) : keyId (simpleName id) = id := by
  unfold keyId
  rw [simpleName_stem h]
  simp only [List.headD_cons]
  rw [pySplit_noSep (h.no (by decide))]
  rfl

theorem keyId_triple {a b c : Str} (ha : IsId a) (hb : IsId b) (hc : IsId c) : keyId (tripleName a b c) = c := by
  unfold keyId
  rw [tripleName_stem ha hb hc]
  simp only [List.headD_cons]
  rw [split_three ha hb hc]
  rfl

theorem keyId_ready : keyId readyName = readyName := by decide

theorem not_isId_ready : ¬ IsId readyName := fun h => absurd (h.2 'r' (by decide)) (by decide)

/-! ### Dictionaries up to order -/

section
variable {α β : Type}

theorem perm_wf {d d' : Dict α β} (h : d.Perm d') : d.WF ↔ d'.WF :=
  (List.Perm.map (fun e : α × β => e.1) h).nodup_iff

theorem perm_keys {d d' : Dict α β} (h : d.Perm d') (k : α) : k ∈ d.keys ↔ k ∈ d'.keys := (List.Perm.map (fun e : α × β => e.1) h).mem_iff

variable [DecidableEq α]

theorem del_perm {d r : Dict α β} {k : α} {v : β} (hw : d.WF) (h : d.Perm ((k, v) :: r)) : (d.del k).Perm r := by
  have hw' : k ∉ Dict.keys r := by
    have := (perm_wf h).mp hw
    simp only [Dict.WF, Dict.keys, List.map_cons, List.nodup_cons] at this
    exact this.1
  unfold Dict.del
  refine (h.filter _).trans ?_
  rw [List.filter_cons, if_neg (by simp)]
  have : r.filter (fun e => decide (e.1 ≠ k)) = r := by
    rw [List.filter_eq_self]
    intro e he
    simp only [ne_eq, decide_eq_true_eq]
    rintro rfl
    exact hw' (List.mem_map.mpr ⟨e, he, rfl⟩)
  rw [this]

theorem set_new_perm {d : Dict α β} {k : α} (v : β) (h : k ∉ d.keys) : (d.set k v).Perm ((k, v) :: d) := by
  rw [Dict.set_of_not_mem _ _ _ h]
  exact List.perm_append_singleton _ _

theorem set_old_perm {d r : Dict α β} {k : α} {v : β} (v' : β) (hw : d.WF) (h : d.Perm ((k, v) :: r)) :
    (d.set k v').Perm ((k, v') :: r) := by
  have hw' : k ∉ Dict.keys r := by
    have := (perm_wf h).mp hw
    simp only [Dict.WF, Dict.keys, List.map_cons, List.nodup_cons] at this
    exact this.1
  have hmem : (k, v) ∈ d := h.mem_iff.mpr (by simp)
  obtain ⟨l1, l2, rfl⟩ := List.append_of_mem hmem
  have hp : (l1 ++ l2).Perm r := List.Perm.cons_inv (List.perm_middle.symm.trans h)
  have hl : k ∉ Dict.keys l1 := fun hk => hw' ((perm_keys hp k).mp (by
    simp only [Dict.keys, List.map_append, List.mem_append]; exact .inl hk))
  have : Dict.set (l1 ++ (k, v) :: l2) k v' = l1 ++ (k, v') :: l2 := by
    clear h hw hmem hp hw'
    induction l1 with
    | nil => simp [Dict.set]
    | cons e r ih =>
      simp only [Dict.keys, List.map_cons, List.mem_cons, not_or] at hl
      simp only [List.cons_append, Dict.set, Ne.symm hl.1, if_false]
      rw [ih hl.2]
  rw [this]
  exact List.perm_middle.trans (hp.cons _)

theorem get?_perm {d r : Dict α β} {k : α} {v : β} (hw : d.WF) (h : d.Perm ((k, v) :: r)) : d.get? k = some v :=
  Dict.mem_get? hw (h.mem_iff.mpr (by simp))

end

/-! ### What the files of a merge are -/

/-- The files of a vocabulary or of two vocabularies that are being merged. -/
def MState.files : MState → List (Str × DumpFile)
  | .ready f s => [(simpleName f.id, .vocab f), (simpleName s.id, .vocab s)]
  | .dumping f s m eof =>
      [(simpleName f.id, .vocab f), (simpleName s.id, .vocab s), (tripleName f.id s.id m.id, .truncated eof)]
  | .finishing f s m .check => [(simpleName f.id, .vocab f), (simpleName s.id, .vocab s), (tripleName f.id s.id m.id, .vocab m)]
  | .finishing f s m .first => [(simpleName f.id, .vocab f), (simpleName s.id, .vocab s), (tripleName f.id s.id m.id, .vocab m)]
  | .finishing f s m .second => [(simpleName s.id, .vocab s), (tripleName f.id s.id m.id, .vocab m)]
  | .finishing f s m .rename => [(tripleName f.id s.id m.id, .vocab m)]
  | .done v => [(simpleName v.id, .vocab v)]

/-- The identifiers in use. -/
def MState.ids : MState → List Str
  | .ready f s => [f.id, s.id]
  | .dumping f s m _ => [f.id, s.id, m.id]
  | .finishing f s m _ => [f.id, s.id, m.id]
  | .done v => [v.id]

/-- The statistics of a vocabulary are as expected: there is exactly one entry for all its files, with its size, and there are no larger
numbers in the other ones. -/
def StatsOk (v : PVocab) : Prop :=
  1 ≤ v.nFiles ∧ (∀ e ∈ v.stats, 1 ≤ e.1 ∧ e.1 ≤ v.nFiles ∧ e.2.1 ≤ v.counts.length ∧ e.2.2 ≤ PVocab.nonEngCount v.counts) ∧
    v.stats.filter (fun e => e.1 = v.nFiles) = [(v.nFiles, v.counts.length, PVocab.nonEngCount v.counts)]

/-- What is counted: the occurrences of a word, the partial vocabularies, and the entries of the statistics for single partial
vocabularies with some numbers. -/
inductive Tally where
  | word (w : Str)
  | files
  | single (e : Nat × Nat)

/-- How much of it a vocabulary has. -/
def PVocab.tally (v : PVocab) : Tally → Nat
  | .word w => countIn v.counts w
  | .files => v.nFiles
  | .single e => v.stats.count (1, e)

/-- A vocabulary as it should be. -/
def VOk (v : PVocab) : Prop := IsId v.id ∧ Dict.WF v.counts ∧ StatsOk v

/-- A merge as it should be. -/
def MState.Ok : MState → Prop
  | .ready f s => VOk f ∧ VOk s
  | .dumping f s m _ => VOk f ∧ VOk s ∧ VOk m ∧ m = (f.addVocab s).1.renewId m.id
  | .finishing f s m _ => VOk f ∧ VOk s ∧ VOk m ∧ m = (f.addVocab s).1.renewId m.id
  | .done v => VOk v

/-- How much there is of what is counted. -/
def MState.count (w : Tally) : MState → Nat
  | .ready f s => f.tally w + s.tally w
  | .dumping f s _ _ => f.tally w + s.tally w
  | .finishing _ _ m _ => m.tally w
  | .done v => v.tally w

/-- Whether a word is there. -/
def MState.hasWord (w : Str) : MState → Prop
  | .ready f s => w ∈ Dict.keys f.counts ∨ w ∈ Dict.keys s.counts
  | .dumping f s _ _ => w ∈ Dict.keys f.counts ∨ w ∈ Dict.keys s.counts
  | .finishing _ _ m _ => w ∈ Dict.keys m.counts
  | .done v => w ∈ Dict.keys v.counts

/-- The directory consists of exactly the files of these merges and the mark. -/
structure Holds (items : List MState) (dir : DumpDir) : Prop where
  perm : dir.Perm ((readyName, .mark) :: (items.map MState.files).flatten)
  nodup : (items.map MState.ids).flatten.Nodup
  ok : ∀ it ∈ items, it.Ok

theorem Holds.reorder {items items' : List MState} {dir : DumpDir} (h : Holds items dir) (hp : items.Perm items') :
    Holds items' dir where
  perm := h.perm.trans (((hp.map _).flatten).cons _)
  nodup := ((hp.map _).flatten.nodup_iff).mp h.nodup
  ok := fun it hit => h.ok it (hp.mem_iff.mpr hit)

theorem MState.ids_isId {m : MState} (h : m.Ok) : ∀ i ∈ m.ids, IsId i := by
  cases m with
  | ready f s =>
    simp only [MState.ids, List.mem_cons, List.not_mem_nil, or_false]
    rintro i (rfl | rfl)
    · exact h.1.1
    · exact h.2.1
  | dumping f s m e =>
    simp only [MState.ids, List.mem_cons, List.not_mem_nil, or_false]
    rintro i (rfl | rfl | rfl)
    · exact h.1.1
    · exact h.2.1.1
    · exact h.2.2.1.1
  | finishing f s m st =>
    simp only [MState.ids, List.mem_cons, List.not_mem_nil, or_false]
    rintro i (rfl | rfl | rfl)
    · exact h.1.1
    · exact h.2.1.1
    · exact h.2.2.1.1
  | done v => simp only [MState.ids, List.mem_cons, List.not_mem_nil, or_false]; rintro i rfl; exact h.1

/-- The identifiers of the files of a merge are among the identifiers in use. -/
theorem MState.keyIds {m : MState} (h : m.Ok) : (m.files.map fun e => keyId e.1).Sublist m.ids := by
  cases m with
  | ready f s => simp [MState.files, MState.ids, keyId_simple h.1.1, keyId_simple h.2.1]
  | dumping f s m e =>
    simp [MState.files, MState.ids, keyId_simple h.1.1, keyId_simple h.2.1.1, keyId_triple h.1.1 h.2.1.1 h.2.2.1.1]
  | finishing f s m st =>
    have h1 := keyId_simple h.1.1
    have h2 := keyId_simple h.2.1.1
    have h3 := keyId_triple h.1.1 h.2.1.1 h.2.2.1.1
    cases st
    · simp [MState.files, MState.ids, h1, h2, h3]
    · simp [MState.files, MState.ids, h1, h2, h3]
    · simp [MState.files, MState.ids, h2, h3]
    · simp only [MState.files, MState.ids, h3, List.map_cons, List.map_nil]
      exact (List.Sublist.refl _).cons _ |>.cons _
  | done v => simp [MState.files, MState.ids, keyId_simple h.1]

theorem keyIds_sublist {items : List MState} (h : ∀ it ∈ items, it.Ok) :
    ((items.map MState.files).flatten.map fun e => keyId e.1).Sublist (items.map MState.ids).flatten := by
  induction items with
  | nil => simp
  | cons a r ih =>
    simp only [List.map_cons, List.flatten_cons, List.map_append]
    exact (MState.keyIds (h a (by simp))).append (ih fun it hit => h it (by simp [hit]))

theorem Holds.wf {items : List MState} {dir : DumpDir} (h : Holds items dir) : dir.WF := by
  rw [perm_wf h.perm]
  unfold Dict.WF Dict.keys
  apply nodup_of_map keyId
  rw [List.map_map, List.map_cons, List.nodup_cons]
  have hs := keyIds_sublist h.ok
  constructor
  · intro hm
    simp only [Function.comp, keyId_ready] at hm
    have := hs.mem hm
    obtain ⟨l, hl, hr⟩ := List.mem_flatten.mp this
    obtain ⟨it, hit, rfl⟩ := List.mem_map.mp hl
    exact not_isId_ready (MState.ids_isId (h.ok it hit) _ hr)
  · exact h.nodup.sublist hs

end Verif
