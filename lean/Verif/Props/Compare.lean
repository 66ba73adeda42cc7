import Verif.Model.Compare
import Verif.Proofs.DirNames
import Verif.Proofs.Registry
/-!
# Comparing datasets, configurations, merges and tokens (C65)
-/
namespace Verif.Props.Compare
open Verif Verif.Compare

/-! ## Configurations -/

/-- **C65** Two configurations are equal if and only if they are written in the same way. -/
theorem C65_config {a b : PrepConfig} (ha : a.Valid) (hb : b.Valid) : prepEq a (some b) = .ok true ↔ a.toStr = b.toStr := by
  have h : prepEq a (some b) = .ok true ↔ a = b := by
    cases a; cases b
    simp [prepEq, and_assoc]
  rw [h]
  exact ⟨fun e => by rw [e], toStr_inj ha hb⟩

/-- **C65 is violated**: a configuration cannot be compared with `None`, nor a BPE configuration. -/
theorem C65_config_violated (a : PrepConfig) (b : BpeConfig) :
    prepEq a none = .error .attributeError ∧ bpeEq (some b) none = .error .attributeError ∧
      bpeEq none (some b) = .error .attributeError := ⟨rfl, rfl, rfl⟩

theorem prepEq_some (a b : PrepConfig) : prepEq a (some b) = .ok (decide (a = b)) := by
  cases a; cases b
  refine congrArg Except.ok (Bool.eq_iff_iff.mpr ?_)
  simp [and_assoc]

theorem bpeEq_some (a b : BpeConfig) : bpeEq (some a) (some b) = .ok (decide (a = b)) := by
  cases a; cases b
  refine congrArg Except.ok (Bool.eq_iff_iff.mpr ?_)
  simp [and_assoc]

/-! ## Datasets -/

theorem subEq_iff (a b : Sub) : subEq a b = true ↔ a = b := by
  cases a; cases b
  simp [subEq, and_assoc]

/-- The same object, or none. -/
def SameObject (a b : Option CustomObj) : Prop := a.map (·.ref) = b.map (·.ref)

theorem customEq_iff (a b : Option CustomObj) : customEq a b = true ↔ SameObject a b := by
  cases a <;> cases b <;> simp [customEq, SameObject]

/-- Everything that is compared before the BPE configurations. -/
def SameBefore (a b : Dataset) : Prop := a.path = b.path ∧ a.prep = b.prep ∧ a.exts = b.exts ∧ SameObject a.custom b.custom

/-- **C65** Comparing two datasets fails, with `AttributeError`, exactly if one of them has a BPE configuration, the other has none, and
paths, configurations, extensions and custom codes are the same. -/
theorem C65_fails_iff (a b : Dataset) (e : PyErr) :
    datasetEq a b = .error e ↔ e = .attributeError ∧ SameBefore a b ∧ a.bpe.isSome ≠ b.bpe.isSome := by
  unfold datasetEq SameBefore
  by_cases h1 : a.path = b.path
  · rw [if_neg (by simp [h1]), prepEq_some]
    by_cases h2 : a.prep = b.prep
    · by_cases h3 : a.exts = b.exts
      · by_cases h4 : customEq a.custom b.custom = true
        · have h4' := (customEq_iff _ _).mp h4
          cases ha : a.bpe with
          | none => cases hb : b.bpe <;> simp [h1, h2, h3, h4, h4', bpeEq, bind, Except.bind, eq_comm (a := e)]
          | some x =>
            cases hb : b.bpe with
            | none => simp [h1, h2, h3, h4, h4', bpeEq, bind, Except.bind, eq_comm (a := e)]
            | some y =>
              rw [bpeEq_some]
              by_cases h5 : x = y
              · simp [h1, h2, h3, h4, h4', h5, bind, Except.bind]
              · simp [h1, h2, h3, h4, h4', h5, bind, Except.bind]
        · have h4' : ¬ SameObject a.custom b.custom := fun h => h4 ((customEq_iff _ _).mpr h)
          simp [h1, h2, h3, h4, h4', bind, Except.bind]
      · simp [h1, h2, h3, bind, Except.bind]
    · simp [h1, h2, bind, Except.bind]
  · rw [if_pos h1]; simp [h1]

/-- **C65** Datasets are equal exactly if all that was given to make them, and the time of the last modification, is the same; custom
codes have to be the same object. -/
theorem C65_equal_iff (a b : Dataset) : datasetEq a b = .ok true ↔
    SameBefore a b ∧ a.bpe = b.bpe ∧ a.modified = b.modified ∧ a.original = b.original ∧ a.parsed = b.parsed ∧
      a.preprocessed = b.preprocessed ∧ a.suppress = b.suppress := by
  unfold datasetEq SameBefore
  by_cases h1 : a.path = b.path
  · rw [if_neg (by simp [h1]), prepEq_some]
    by_cases h2 : a.prep = b.prep
    · by_cases h3 : a.exts = b.exts
      · by_cases h4 : customEq a.custom b.custom = true
        · have h4' := (customEq_iff _ _).mp h4
          cases ha : a.bpe with
          | none => cases hb : b.bpe <;> simp [h1, h2, h3, h4, h4', bpeEq, bind, Except.bind, subEq_iff, and_assoc]
          | some x =>
            cases hb : b.bpe with
            | none => simp [h1, h2, h3, h4, h4', bpeEq, bind, Except.bind]
            | some y =>
              rw [bpeEq_some]
              by_cases h5 : x = y
              · simp [h1, h2, h3, h4, h4', h5, bind, Except.bind, subEq_iff, and_assoc]
              · simp [h1, h2, h3, h4, h4', h5, bind, Except.bind]
        · have h4' : ¬ SameObject a.custom b.custom := fun h => h4 ((customEq_iff _ _).mpr h)
          simp [h1, h2, h3, h4, h4', bind, Except.bind]
      · simp [h1, h2, h3, bind, Except.bind]
    · simp [h1, h2, bind, Except.bind]
  · rw [if_pos h1]; simp [h1]

/-- **C65** A dataset is equal to itself. -/
theorem C65_refl (a : Dataset) : datasetEq a a = .ok true :=
  (C65_equal_iff a a).mpr ⟨⟨rfl, rfl, rfl, rfl⟩, rfl, rfl, rfl, rfl, rfl, rfl⟩

/-- **C65** The order in which two datasets are compared does not matter, not even for failures. -/
theorem C65_symm (a b : Dataset) : datasetEq a b = datasetEq b a := by
  have t : ∀ a b, datasetEq a b = .ok true → datasetEq b a = .ok true := by
    intro a b h
    obtain ⟨⟨h1, h2, h3, h4⟩, h5, h6, h7, h8, h9, h10⟩ := (C65_equal_iff a b).mp h
    exact (C65_equal_iff b a).mpr ⟨⟨h1.symm, h2.symm, h3.symm, Eq.symm h4⟩, h5.symm, h6.symm, h7.symm, h8.symm, h9.symm, h10.symm⟩
  have f : ∀ a b e, datasetEq a b = .error e → datasetEq b a = .error e := by
    intro a b e h
    obtain ⟨he, ⟨h1, h2, h3, h4⟩, h5⟩ := (C65_fails_iff a b e).mp h
    exact (C65_fails_iff b a e).mpr ⟨he, ⟨h1.symm, h2.symm, h3.symm, Eq.symm h4⟩, Ne.symm h5⟩
  rcases h : datasetEq a b with e | r
  · exact (f a b e h).symm
  · cases r with
    | true => exact (t a b h).symm
    | false =>
      rcases h' : datasetEq b a with e | r
      · rw [f b a e h'] at h; cases h
      · cases r with
        | true => rw [t b a h'] at h; cases h
        | false => rfl

/-- **C65** Equality of datasets is transitive. -/
theorem C65_trans (a b c : Dataset) (h : datasetEq a b = .ok true) (h' : datasetEq b c = .ok true) : datasetEq a c = .ok true := by
  obtain ⟨⟨h1, h2, h3, h4⟩, h5, h6, h7, h8, h9, h10⟩ := (C65_equal_iff a b).mp h
  obtain ⟨⟨g1, g2, g3, g4⟩, g5, g6, g7, g8, g9, g10⟩ := (C65_equal_iff b c).mp h'
  exact (C65_equal_iff a c).mpr ⟨⟨h1.trans g1, h2.trans g2, h3.trans g3, Eq.trans h4 g4⟩, h5.trans g5, h6.trans g6, h7.trans g7,
    h8.trans g8, h9.trans g9, h10.trans g10⟩

/-- **C65 (partial)** Datasets that are made in the same way at the same state of the files are equal.  Missing: with custom codes this
is so only if they are the same object (`C65_custom_violated`). -/
theorem C65_made_partial (dirs : Dirs) (path : Str) (c : PrepConfig) (exts : Option (List Str)) (x y : Option CustomObj)
    (hx : SameObject x y) (hc : x.map (·.content) = y.map (·.content)) (b : Option BpeConfig) (out : Option Str) (s : Bool) (t : Str) :
    datasetEq (.make dirs path c exts x b out s t) (.make dirs path c exts y b out s t) = .ok true := by
  refine (C65_equal_iff _ _).mpr ⟨⟨rfl, rfl, rfl, hx⟩, rfl, rfl, rfl, rfl, ?_, rfl⟩
  have : customName x = customName y := by
    cases x <;> cases y <;> simp [customName] at hc ⊢
    simp [hc]
  simp only [Dataset.make, this]

/-- **C65** Whatever two datasets are made from: if they are equal, then they were made from the same values, and everything that is
computed for them is stored at the same places. -/
theorem C65_made_iff (dirs : Dirs) (p p' : Str) (c c' : PrepConfig) (e e' : Option (List Str)) (x x' : Option CustomObj)
    (b b' : Option BpeConfig) (o o' : Option Str) (s s' : Bool) (t t' : Str) :
    datasetEq (.make dirs p c e x b o s t) (.make dirs p' c' e' x' b' o' s' t') = .ok true ↔
      p = p' ∧ c = c' ∧ e = e' ∧ SameObject x x' ∧ b = b' ∧ s = s' ∧ t = t' ∧
        prepPath dirs (datasetDirName p t e) c (customName x) o = prepPath dirs (datasetDirName p' t' e') c' (customName x') o' := by
  rw [C65_equal_iff]
  simp only [Dataset.make, SameBefore, Sub.mk.injEq]
  constructor
  · rintro ⟨⟨h1, h2, h3, h4⟩, h5, h6, -, -, ⟨-, h9, -⟩, h10⟩
    exact ⟨h1, h2, h3, h4, h5, h10, h6, h9⟩
  · rintro ⟨h1, h2, h3, h4, h5, h10, h6, h9⟩
    subst h1 h3 h6
    exact ⟨⟨rfl, h2, rfl, h4⟩, h5, rfl, ⟨rfl, rfl, trivial⟩, ⟨rfl, rfl, trivial⟩, ⟨rfl, h9, trivial⟩, h10⟩

theorem dirName_head (p t : Str) (e : Option (List Str)) (r : Str) : (datasetDirName p t e ++ r).head? ≠ some '/' := by
  have hb : ∀ r : Str, (basename p ++ '_' :: r).head? ≠ some '/' := by
    intro r
    cases h : basename p with
    | nil => simp
    | cons c l =>
      have hc : c ∈ basename p := by rw [h]; exact List.mem_cons_self
      simp only [basename, List.mem_reverse] at hc
      have := mem_takeWhile_pos hc
      simpa using this
  unfold datasetDirName
  rcases e with _ | _ | ⟨x, es⟩ <;> simp only [List.append_assoc, List.cons_append] <;> exact hb _

theorem pathJoin_inj {a b n : Str} (hn : n.head? ≠ some '/') (ha : a ≠ []) (hb : b ≠ []) (ha' : a.getLast? ≠ some '/')
    (hb' : b.getLast? ≠ some '/') (h : pathJoin a n = pathJoin b n) : a = b := by
  simp only [pathJoin, hn, ha, hb, ha', hb', if_false, or_self] at h
  exact List.append_cancel_right h

/-- **C65** Datasets that are made in the same way but for the output directory are equal exactly if the output directory is the same (no
slash at the end). -/
theorem C65_output (dirs : Dirs) (p : Str) (c : PrepConfig) (e : Option (List Str)) (x : Option CustomObj)
    (b : Option BpeConfig) (o o' : Str) (s : Bool) (t : Str) (ho : o ≠ []) (ho' : o' ≠ [])
    (h : o.getLast? ≠ some '/') (h' : o'.getLast? ≠ some '/') :
    datasetEq (.make dirs p c e x b (some o) s t) (.make dirs p c e x b (some o') s t) = .ok true ↔ o = o' := by
  rw [C65_made_iff]
  constructor
  · rintro ⟨-, -, -, -, -, -, -, hp⟩
    cases o with
    | nil => exact absurd rfl ho
    | cons y l =>
      cases o' with
      | nil => exact absurd rfl ho'
      | cons z m =>
        refine pathJoin_inj ?_ ho ho' h h' hp
        simp only [prepDirName, if_true, List.append_assoc]
        exact dirName_head _ _ _ _
  · rintro rfl
    exact ⟨rfl, rfl, rfl, rfl, rfl, rfl, rfl, rfl⟩

/-- **C65** An empty output directory is the default one; and results are stored in the directory that was given, in a directory whose
name begins with the name of the dataset. -/
theorem C65_output_place (dirs : Dirs) (p : Str) (c : PrepConfig) (e : Option (List Str)) (x : Option CustomObj)
    (b : Option BpeConfig) (o : Str) (s : Bool) (t : Str) :
    datasetEq (.make dirs p c e x b (some []) s t) (.make dirs p c e x b none s t) = .ok true ∧
      (∃ n, (Dataset.make dirs p c e x b none s t).preprocessed.path = pathJoin dirs.prep (basename p ++ '_' :: t ++ n)) ∧
      (o ≠ [] → ∃ n, (Dataset.make dirs p c e x b (some o) s t).preprocessed.path = pathJoin o (basename p ++ '_' :: t ++ n)) ∧
      (∃ n, (Dataset.make dirs p c e x b (some o) s t).parsed.path = pathJoin dirs.parsed (basename p ++ '_' :: t ++ n)) ∧
      (Dataset.make dirs p c e x b (some o) s t).original.path = p := by
  have hd : ∃ n, datasetDirName p t e = basename p ++ '_' :: t ++ n := by
    unfold datasetDirName
    rcases e with _ | _ | ⟨y, es⟩
    · exact ⟨[], by simp⟩
    · exact ⟨[], by simp⟩
    · exact ⟨_, rfl⟩
  obtain ⟨n, hd⟩ := hd
  refine ⟨?_, ?_, ?_, ⟨n, by simp only [Dataset.make, hd]⟩, rfl⟩
  · rw [C65_made_iff]
    exact ⟨rfl, rfl, rfl, rfl, rfl, rfl, rfl, rfl⟩
  · refine ⟨n ++ ("_-_".toList ++ prepSuffix c (customName x)), ?_⟩
    simp only [Dataset.make, prepPath, prepDirName, hd, List.append_assoc, if_neg (show ¬ (false = true) by decide)]
  · intro ho
    cases o with
    | nil => exact absurd rfl ho
    | cons y l =>
      refine ⟨n ++ ("_-_".toList ++ (prepSuffix c (customName x) ++ "_-_prep".toList)), ?_⟩
      simp only [Dataset.make, prepPath, prepDirName, hd, List.append_assoc, if_true]

/-- What tells custom codes apart: their name and the number of merges. -/
def CodesOf (x : Option CustomObj) : Option (Str × Int) := x.map fun o => (o.content.id, o.content.nMerges)

theorem pathJoin_right {o a b : Str} (ha : a.head? ≠ some '/') (hb : b.head? ≠ some '/') (h : pathJoin o a = pathJoin o b) : a = b := by
  simp only [pathJoin, if_neg ha, if_neg hb] at h
  split at h
  · exact List.append_cancel_left h
  · exact (List.cons.inj (List.append_cancel_left h)).2

theorem prepDirName_eq {n : Str} {c c' : PrepConfig} (h : c.Valid) (h' : c'.Valid) {x x' : Option (Str × Nat)} {ov : Bool}
    (he : prepDirName n c x ov = prepDirName n c' x' ov) : c = c' ∧ x = x' := by
  unfold prepDirName at he
  cases ov with
  | false => exact prepSuffix_inj h h' (List.append_cancel_left he)
  | true => exact prepSuffix_inj h h' (List.append_cancel_left (List.append_cancel_right he))

/-- **C65** Results for the same files are stored at the same place exactly if the configuration is the same and the codes, if any, have the
same name and the same number of merges. -/
theorem C65_place_iff (dirs : Dirs) (p : Str) {c c' : PrepConfig} (h : c.Valid) (h' : c'.Valid) (e : Option (List Str))
    (x x' : Option CustomObj) (hx : ∀ o ∈ x, 0 ≤ o.content.nMerges) (hx' : ∀ o ∈ x', 0 ≤ o.content.nMerges)
    (b b' : Option BpeConfig) (o : Option Str) (s s' : Bool) (t : Str) :
    (Dataset.make dirs p c e x b o s t).preprocessed = (Dataset.make dirs p c' e x' b' o s' t).preprocessed ↔
      c = c' ∧ CodesOf x = CodesOf x' := by
  have hcn : customName x = customName x' ↔ CodesOf x = CodesOf x' := by
    cases x with
    | none => cases x' <;> simp [customName, CodesOf]
    | some a =>
      cases x' with
      | none => simp [customName, CodesOf]
      | some a' =>
        have h1 := hx a rfl
        have h2 := hx' a' rfl
        simp only [customName, CodesOf, Option.map_some, Option.some.injEq, Prod.mk.injEq]
        exact and_congr_right fun _ => by omega
  have hh : ∀ c x ov, (prepDirName (datasetDirName p t e) c x ov).head? ≠ some '/' := by
    intro c x ov
    unfold prepDirName
    cases ov <;> simp only [if_true, Bool.false_eq_true, if_false, List.append_assoc] <;> exact dirName_head _ _ _ _
  rw [← hcn]
  simp only [Dataset.make, Sub.mk.injEq, true_and, and_true]
  constructor
  · intro hp
    unfold prepPath at hp
    split at hp
    · exact prepDirName_eq h h' (pathJoin_right (hh _ _ _) (hh _ _ _) hp)
    · exact prepDirName_eq h h' (pathJoin_right (hh _ _ _) (hh _ _ _) hp)
  · rintro ⟨rfl, hc⟩
    rw [hc]

/-- The configuration with custom codes, and a dataset with it. -/
def customConfig : PrepConfig := ⟨['u'], ['c'], ['1'], ['9'], ['s'], ['u']⟩
def customCodes : CustomBpeConfig := ⟨"d".toList, 100, ⟨"d_1".toList, none, ["100".toList]⟩, "100".toList, true⟩
def customDataset (ref : Nat) : Dataset :=
  .make ⟨"/parsed".toList, "/prep".toList⟩ "/d".toList customConfig none (some ⟨ref, customCodes⟩) none none false "1".toList

/-- **C65 is violated**: datasets that are made with the same custom codes are not equal if the codes were looked up twice, although all
results are stored at the same places. -/
theorem C65_custom_violated : datasetEq (customDataset 0) (customDataset 1) = .ok false ∧
    (customDataset 0).parsed = (customDataset 1).parsed ∧ (customDataset 0).preprocessed = (customDataset 1).preprocessed ∧
    (customDataset 0).custom.map (·.content) = (customDataset 1).custom.map (·.content) := by
  refine ⟨?_, rfl, rfl, rfl⟩
  simp [datasetEq, customDataset, Dataset.make, customEq, prepEq_some, bind, Except.bind]

/-- Non-vacuity of `C65_place_iff`: the results for 100 and for 200 merges are stored at different places. -/
example : customConfig.Valid ∧ (customDataset 0).preprocessed.path = "/prep/d_1_-_uc19su_d-100".toList ∧
    (Dataset.make ⟨"/parsed".toList, "/prep".toList⟩ "/d".toList customConfig none (some ⟨1, { customCodes with nMerges := 200 }⟩) none none
      false "1".toList).preprocessed.path = "/prep/d_1_-_uc19su_d-200".toList := by
  refine ⟨⟨by decide, by decide, by decide +kernel, by decide, by decide, by decide, by decide⟩, by rfl, by rfl⟩

/-- A dataset on which byte-pair encoding is learnt, or not. -/
def plainConfig : PrepConfig := ⟨['u'], ['0'], ['E'], ['F'], ['s'], ['u']⟩
def learnDataset (b : Option BpeConfig) : Dataset :=
  .make ⟨"/parsed".toList, "/prep".toList⟩ "/d".toList plainConfig none none b none false "1".toList

/-- **C65 is violated**: comparing a dataset on which codes are learnt with the same dataset without that fails. -/
theorem C65_learn_violated (b : BpeConfig) : datasetEq (learnDataset (some b)) (learnDataset none) = .error .attributeError ∧
    datasetEq (learnDataset none) (learnDataset (some b)) = .error .attributeError :=
  ⟨(C65_fails_iff _ _ _).mpr ⟨rfl, ⟨rfl, rfl, rfl, rfl⟩, by simp [learnDataset, Dataset.make]⟩,
    (C65_fails_iff _ _ _).mpr ⟨rfl, ⟨rfl, rfl, rfl, rfl⟩, by simp [learnDataset, Dataset.make]⟩⟩

/-! ## Merges -/

theorem mergeEq_iff (a b : Merge) : mergeEq a b = true ↔ a = b := by
  cases a; cases b
  simp only [mergeEq, Bool.and_eq_true, decide_eq_true_eq, Merge.mk.injEq]
  exact ⟨fun h => ⟨h.1.1, h.2, h.1.2⟩, fun h => ⟨⟨h.1, h.2.2⟩, h.2.1⟩⟩

/-- **C65** Equal merges have equal hashes, whatever the hash function of tuples is. -/
theorem C65_merge_hash (h : (Str × Str) × Option Nat × Option Int → Nat) (a b : Merge) (he : mergeEq a b = true) :
    mergeHash h a = mergeHash h b := by rw [(mergeEq_iff a b).mp he]

theorem mergesEq_iff : ∀ a b : List Merge, mergesEq a b = true ↔ a = b
  | [], [] => by simp [mergesEq]
  | [], _ :: _ => by simp [mergesEq]
  | _ :: _, [] => by simp [mergesEq]
  | a :: r, b :: s => by rw [mergesEq, Bool.and_eq_true, mergeEq_iff, mergesEq_iff r s, List.cons.injEq]

/-- **C65** Two lists of merges are equal exactly if they have the same merges with the same frequencies and ranks in the same order. -/
theorem C65_merge_list (a b : MergeList) : mergeListEq a b = true ↔ a = b := by
  rw [mergeListEq, mergesEq_iff]
  refine ⟨fun h => ?_, fun h => by rw [h]⟩
  unfold MergeList.toMerges at h
  induction a generalizing b with
  | nil => cases b with
    | nil => rfl
    | cons _ _ => simp at h
  | cons x r ih => cases b with
    | nil => simp at h
    | cons y s =>
      simp only [List.map_cons, List.cons.injEq, Merge.mk.injEq, Option.some.injEq] at h
      rw [ih s h.2]
      obtain ⟨h1, h2, h3⟩ := h.1
      rw [Prod.ext h1 (Prod.ext h2 h3)]

/-- **C65** A merge that was stored in a dict is found under every equal merge, if merges are not changed meanwhile. -/
theorem C65_dict (h : (Str × Str) × Option Nat × Option Int → Nat) (heap : Nat → Merge) (d : MergeDict) (a b : Nat) (v : Int)
    (hn : findEntry h heap d a = none) (he : heap a = heap b) :
    (findEntry h heap (setEntry h heap d a v) b).map (·.2.2) = some v := by
  have hb : findEntry h heap d b = none := by
    unfold findEntry at hn ⊢
    rw [List.find?_eq_none] at hn ⊢
    intro e hm
    have := hn e hm
    simp only [Bool.and_eq_true, decide_eq_true_eq, Bool.or_eq_true, mergeEq_iff, not_and, not_or] at this ⊢
    intro h1
    have h2 := this (by rw [he]; exact h1)
    refine ⟨fun h3 => h2.2 (by rw [h3, he]), fun h3 => h2.2 (by rw [h3, he])⟩
  unfold setEntry
  rw [hn]
  unfold findEntry at hb ⊢
  rw [List.find?_append, hb]
  simp [he, mergeEq_iff]

/-- **C65** Storing a value under a merge that is equal to a key of the dict changes the value only: the keys and their order stay, also
which object the key is. -/
theorem C65_dict_again (h : (Str × Str) × Option Nat × Option Int → Nat) (heap : Nat → Merge) (d : MergeDict) (a b : Nat) (v : Int)
    (hn : findEntry h heap d a ≠ none) (he : heap a = heap b) :
    (setEntry h heap d a v).map (fun e => (e.1, e.2.1)) = d.map (fun e => (e.1, e.2.1)) ∧
      (findEntry h heap (setEntry h heap d a v) b).map (·.2.2) = some v := by
  have hb : findEntry h heap d b = findEntry h heap d a := by
    unfold findEntry
    congr 1
    funext e
    rw [Bool.eq_iff_iff]
    simp only [Bool.and_eq_true, decide_eq_true_eq, Bool.or_eq_true, mergeEq_iff, he]
    constructor
    · rintro ⟨h1, h2⟩; exact ⟨h1, .inr (h2.elim (fun e => by rw [e]) id)⟩
    · rintro ⟨h1, h2⟩; exact ⟨h1, .inr (h2.elim (fun e => by rw [e, he]) id)⟩
  cases hf : findEntry h heap d a with
  | none => exact absurd hf hn
  | some e =>
    have hs : setEntry h heap d a v = d.map fun f => if f = e then (e.1, e.2.1, v) else f := by unfold setEntry; rw [hf]
    rw [hs]
    constructor
    · rw [List.map_map]
      refine List.map_congr_left fun f _ => ?_
      by_cases hfe : f = e
      · simp [hfe]
      · simp [hfe]
    · rw [hf] at hb
      unfold findEntry at hb ⊢
      rw [List.find?_map]
      have : ((fun e : Nat × Nat × Int => decide (e.1 = mergeHash h (heap b)) && (decide (e.2.1 = b) || mergeEq (heap e.2.1) (heap b))) ∘
          fun f => if f = e then (e.1, e.2.1, v) else f) =
          fun e => decide (e.1 = mergeHash h (heap b)) && (decide (e.2.1 = b) || mergeEq (heap e.2.1) (heap b)) := by
        funext f
        by_cases hfe : f = e
        · simp [hfe]
        · simp [hfe]
      rw [this, hb]
      simp

-- the dict has the object with the address 1 as its key, and still has it after storing under the equal object 2
example : setEntry (fun _ => 7) (fun _ => ⟨(['a'], ['b']), none, none⟩) [(7, 1, 5)] 2 6 = [(7, 1, 6)] := by decide

/-- **C65** A merge that is refused by a list is not changed. -/
theorem C65_append_refused (l : MergeList) (m : Merge) (e : PyErr) (ha : l.append m = .error e) : appendEffect l.length m = m := by
  unfold MergeList.append at ha
  cases hp : m.priority with
  | none => rw [hp] at ha; cases ha
  | some n => simp [appendEffect, hp]

/-- **C65 is violated**: appending a merge without a rank to a list changes the merge.  A dict in which it is a key does not find it any
more, if the hash function tells the two tuples apart. -/
theorem C65_append_violated (h : (Str × Str) × Option Nat × Option Int → Nat) (p : Str × Str) (f : Option Int) (len : Nat) (v : Int)
    (hh : h (p, none, f) ≠ h (p, some len, f)) :
    let m : Merge := ⟨p, f, none⟩
    let d := setEntry h (fun _ => m) [] 0 v
    (findEntry h (fun _ => m) d 0).map (·.2.2) = some v ∧ findEntry h (fun _ => appendEffect len m) d 0 = none := by
  refine ⟨by simp [setEntry, findEntry, mergeHash], ?_⟩
  simp [setEntry, findEntry, mergeHash, appendEffect, hh]

/-- The dict of a list of merges has the merge as `appendEffect` leaves it. -/
theorem C65_append (l : MergeList) (m : Merge) (l' : MergeList) (ha : l.append m = .ok l') :
    l' = l.set m.pair (m.freq, l.length) ∧ (appendEffect l.length m).priority = some l.length ∧
      (appendEffect l.length m).pair = m.pair ∧ (appendEffect l.length m).freq = m.freq := by
  unfold MergeList.append at ha
  cases hp : m.priority with
  | none =>
    rw [hp] at ha
    exact ⟨(Except.ok.inj ha).symm, by simp [appendEffect, hp], by simp [appendEffect, hp], by simp [appendEffect, hp]⟩
  | some n =>
    rw [hp] at ha
    simp only at ha
    split at ha
    · cases ha
    · rename_i hne
      have hne : n = l.length := by simpa using hne
      subst hne
      exact ⟨(Except.ok.inj ha).symm, by simp [appendEffect, hp], by simp [appendEffect, hp], by simp [appendEffect, hp]⟩

/-! ## Tokens -/

theorem subtokEq_iff (a b : Subtok) : subtokEq a b = true ↔ a = b := by
  cases a <;> cases b <;> simp [subtokEq]

theorem subtoksEq_iff : ∀ a b : List Subtok, subtoksEq a b = true ↔ a = b
  | [], [] => by simp [subtoksEq]
  | [], _ :: _ => by simp [subtoksEq]
  | _ :: _, [] => by simp [subtoksEq]
  | a :: r, b :: s => by rw [subtoksEq, Bool.and_eq_true, subtokEq_iff, subtoksEq_iff r s, List.cons.injEq]

mutual
theorem tokEq_iff (a b : Tok) : tokEq a b = true ↔ a = b := by
  match a with
  | .oneLineComment x => cases b <;> simp [tokEq, toksEq_iff x]
  | .multilineComment x => cases b <;> simp [tokEq, toksEq_iff x]
  | .stringLiteral x n => cases b <;> simp [tokEq, toksEq_iff x]
  | .number _ | .one | .zero | .newLine | .tab | .spaceInString _ | .keyWord _ | .operator _ | .semicolon | .openingCurly
  | .closingCurly | .openingBracket | .closingBracket | .nonCodeChar _ | .specialToken _ | .split _ | .nonEng _ =>
    cases b <;> simp [tokEq, subtoksEq_iff]

theorem toksEq_iff (a b : List Tok) : toksEq a b = true ↔ a = b := by
  match a, b with
  | [], [] => simp [toksEq]
  | [], _ :: _ => simp [toksEq]
  | _ :: _, [] => simp [toksEq]
  | a :: r, b :: s => rw [toksEq, Bool.and_eq_true, tokEq_iff a b, toksEq_iff r s, List.cons.injEq]
end

/-- **C65** Two parsed tokens are equal exactly if they are of the same class and have the same contents, down to the last subtoken. -/
theorem C65_tokens (a b : Tok) : tokEq a b = true ↔ a = b := tokEq_iff a b

/-- **C65** Equal lists of tokens show the same text. -/
theorem C65_tokens_text (u : Ucd) (a b : List Tok) (h : toksEq a b = true) : a.map (Tok.str u) = b.map (Tok.str u) := by
  rw [(toksEq_iff a b).mp h]

-- the class matters, not only the text
example : tokEq (.number ['1']) .one = false ∧ tokEq (.operator [';']) .semicolon = false ∧
    tokEq (.stringLiteral [.tab] 1) (.stringLiteral [.tab] 2) = false ∧
    tokEq (.oneLineComment [.split [.word ['a'] .none]]) (.oneLineComment [.split [.word ['a'] .none]]) = true := by
  simp [tokEq, toksEq, subtoksEq, subtokEq]

end Verif.Props.Compare
