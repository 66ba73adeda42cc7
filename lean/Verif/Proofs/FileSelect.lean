import Verif.Proofs.FileList
import Verif.Spec.FileList
/-!
# Lemmas about selecting files and sorting extensions
-/
namespace Verif
open Spec

/-! ## Lemmas -/

theorem bytesEndsWith_iff (n s : Bytes) : bytesEndsWith n s = true ↔ ∃ stem, n = stem ++ s := by
  unfold bytesEndsWith
  rw [List.isPrefixOf_iff_prefix, List.reverse_prefix]
  exact ⟨fun ⟨t, h⟩ => ⟨t, h.symm⟩, fun ⟨t, h⟩ => ⟨t, h.symm⟩⟩

theorem hasOneOf_iff (n : Bytes) (l : List Bytes) : hasOneOfExtensions n l = true ↔ ∃ x ∈ l, ∃ stem, n = stem ++ [46] ++ x := by
  induction l with
  | nil => simp [hasOneOfExtensions]
  | cons e l ih =>
    unfold hasOneOfExtensions
    split
    · next h =>
      obtain ⟨stem, h⟩ := (bytesEndsWith_iff _ _).mp h
      refine ⟨fun _ => ⟨e, List.mem_cons_self, stem, by simpa using h⟩, fun _ => rfl⟩
    · next h =>
      rw [ih]
      constructor
      · rintro ⟨x, hx, s⟩; exact ⟨x, List.mem_cons_of_mem _ hx, s⟩
      · rintro ⟨x, hx, stem, hs⟩
        rcases List.mem_cons.mp hx with rfl | hx
        · exact absurd ((bytesEndsWith_iff _ _).mpr ⟨stem, by simpa using hs⟩) h
        · exact ⟨x, hx, stem, hs⟩

theorem utf8_eq (s : Str) : utf8 s = encodeUtf8 s := by
  unfold utf8 encodeUtf8
  rw [String.toByteArray_ofList, List.utf8Encode]
  simp

theorem selected_iff (exts : Option (List Str)) (p : Bytes) (l : Bool) : selected exts p l = true ↔ Wanted exts p l := by
  unfold selected Wanted
  rw [Bool.and_eq_true]
  rcases exts with _ | _ | ⟨e, es⟩
  · simp
  · simp
  · have : hasOneOfExtensions p ((e :: es).map encodeUtf8) = true ↔ ∃ x ∈ e :: es, ∃ stem : Bytes, p = stem ++ [46] ++ utf8 x := by
      rw [hasOneOf_iff]
      constructor
      · rintro ⟨x, hx, stem, h⟩
        obtain ⟨y, hy, rfl⟩ := List.mem_map.mp hx
        exact ⟨y, hy, stem, by rw [utf8_eq]; exact h⟩
      · rintro ⟨x, hx, stem, h⟩
        exact ⟨encodeUtf8 x, List.mem_map_of_mem hx, stem, by rw [← utf8_eq]; exact h⟩
    show hasOneOfExtensions p ((e :: es).map encodeUtf8) = true ∧ _ ↔ _
    rw [this]
    cases l <;> simp

theorem concat_flatMap {α : Type} (f : α → List Str) (l : List α) : concat (l.map fun a => concat (f a)) = concat (l.flatMap f) := by
  induction l with
  | nil => rfl
  | cons a l ih =>
    rw [List.map_cons, List.flatMap_cons]
    show concat (f a) ++ concat _ = _
    rw [ih, concat_eq_flatten, concat_eq_flatten, concat_eq_flatten, List.flatten_append]

/-- The files of a tree that are listed. -/
def listedFiles (exts : Option (List Str)) : Scanned → List Bytes
  | .file base => [base]
  | .dir es => es.flatMap fun e => (e.files.filter fun f => selected exts (joinPath e.root f.1) f.2).map fun f => joinPath e.root f.1

/-- The directories of a tree that are listed. -/
def listedDirs : Scanned → List Bytes
  | .file _ => []
  | .dir es => foundDirs es

theorem walkAndSave_eq (b : Bool) (exts : Option (List Str)) (sc : Scanned) :
    walkAndSave b exts sc = ⟨if b then listedDirs sc else listedFiles exts sc,
      concat ((listedDirs sc).map fun n => bytesRepr n ++ ['\n']), concat ((listedFiles exts sc).map fun n => bytesRepr n ++ ['\n'])⟩ := by
  cases sc with
  | file base => cases b <;> simp [walkAndSave, listedFiles, listedDirs, concat]
  | dir es =>
    unfold walkAndSave listedFiles listedDirs foundDirs
    simp only [List.map_map]
    congr 1
    · cases b <;> simp [scanEntry, Function.comp_def, List.flatMap_def]
    · rw [List.map_flatMap, ← concat_flatMap]; rfl
    · rw [List.map_flatMap, ← concat_flatMap]; rfl

theorem listedFiles_eq (exts : Option (List Str)) (es : List WalkEntry) :
    listedFiles exts (.dir es) = ((foundFiles es).filter fun f => selected exts f.1 f.2).map (·.1) := by
  show (es.flatMap fun e => (e.files.filter fun f => selected exts (joinPath e.root f.1) f.2).map fun f => joinPath e.root f.1) = _
  unfold foundFiles
  induction es with
  | nil => rfl
  | cons e es ih =>
    rw [List.flatMap_cons, List.flatMap_cons, ih, List.filter_append, List.map_append, List.filter_map, List.map_map]
    rfl

theorem join_plain {r n : Bytes} (hr : PlainRoot r) (hn : PlainName n) : joinPath r n = r ++ [47] ++ n := by
  unfold joinPath
  have h1 : ¬ n.head? = some 47 := by
    intro h
    cases n with
    | nil => simp at h
    | cons a t => simp at h; exact hn.2 (by simp [h])
  rw [if_neg h1, if_neg (by rintro (h | h); exact hr.1 h; exact hr.2 h)]
  simp

theorem join_inj {r n r' n' : Bytes} (hr : PlainRoot r) (hn : PlainName n) (hr' : PlainRoot r') (hn' : PlainName n')
    (h : joinPath r n = joinPath r' n') : r = r' ∧ n = n' := by
  rw [join_plain hr hn, join_plain hr' hn'] at h
  have key : ∀ {a b c d : Bytes}, (47 : UInt8) ∉ b → (47 : UInt8) ∉ d → a ++ [47] ++ b = c ++ [47] ++ d → b.length ≤ d.length := by
    intro a b c d hb hd e
    by_cases hl : b.length ≤ d.length
    · exact hl
    · exfalso
      have e2 := congrArg List.reverse e
      simp only [List.reverse_append, List.reverse_cons, List.reverse_nil, List.nil_append, List.append_assoc] at e2
      have e3 := congrArg (fun l => l[d.length]?) e2
      rw [List.getElem?_append_left (by simp; omega), List.getElem?_append_right (by simp)] at e3
      simp at e3
      have := List.mem_of_getElem? e3
      exact hb (by simpa using this)
  have hl : n.length = n'.length := Nat.le_antisymm (key hn.2 hn'.2 h) (key hn'.2 hn.2 h.symm)
  have := List.append_inj' h hl
  exact ⟨by simpa using this.1, this.2⟩

/-! ## Order of strings -/

theorem strLe_iff (a b : Str) : strLe a b = true ↔ a ≤ b := by
  induction a generalizing b with
  | nil => simp [strLe]
  | cons x a ih =>
    cases b with
    | nil => simp [strLe]
    | cons y b =>
      unfold strLe
      rw [List.cons_le_cons_iff]
      have lt : ∀ c d : Char, c < d ↔ c.toNat < d.toNat := fun c d => Iff.rfl
      have eq : x.toNat = y.toNat → x = y := fun h => Char.ext (UInt32.toNat_inj.mp h)
      split
      · next h => simp [(lt x y).mpr h]
      · next h =>
        split
        · next h' =>
          simp only [lt, h, false_or]
          constructor
          · intro h; cases h
          · rintro ⟨rfl, _⟩; omega
        · next h' =>
          rw [ih, lt]
          have := eq (by omega)
          subst this
          simp

theorem insertStr_perm (x : Str) (l : List Str) : (insertStr x l).Perm (x :: l) := by
  induction l with
  | nil => exact .refl _
  | cons y l ih =>
    unfold insertStr
    split
    · exact .refl _
    · exact (ih.cons y).trans (.swap _ _ _)

theorem sortStr_perm (l : List Str) : (sortStr l).Perm l := by
  induction l with
  | nil => exact .refl _
  | cons x l ih => exact (insertStr_perm x _).trans (ih.cons x)

theorem insertStr_sorted (x : Str) {l : List Str} (h : l.Pairwise (· ≤ ·)) : (insertStr x l).Pairwise (· ≤ ·) := by
  induction l with
  | nil => simp [insertStr]
  | cons y l ih =>
    unfold insertStr
    split
    · next hx =>
      have hx := (strLe_iff x y).mp hx
      refine List.pairwise_cons.mpr ⟨fun z hz => ?_, h⟩
      rcases List.mem_cons.mp hz with rfl | hz
      · exact hx
      · exact List.le_trans hx ((List.pairwise_cons.mp h).1 z hz)
    · next hx =>
      have hx : y ≤ x := by
        rcases Std.le_total (a := x) (b := y) with h | h
        · exact absurd ((strLe_iff x y).mpr h) hx
        · exact h
      refine List.pairwise_cons.mpr ⟨fun z hz => ?_, ih (List.pairwise_cons.mp h).2⟩
      rcases List.mem_cons.mp ((insertStr_perm x l).mem_iff.mp hz) with rfl | hz
      · exact hx
      · exact (List.pairwise_cons.mp h).1 z hz

theorem sortStr_sorted (l : List Str) : (sortStr l).Pairwise (· ≤ ·) := by
  induction l with
  | nil => exact .nil
  | cons x l ih => exact insertStr_sorted x ih

theorem mem_dedup (x : Str) (l : List Str) : x ∈ dedup l ↔ x ∈ l := by
  induction l with
  | nil => simp [dedup]
  | cons y l ih =>
    unfold dedup
    split
    · next h =>
      rw [ih, List.mem_cons]
      exact ⟨.inr, by rintro (rfl | h') <;> assumption⟩
    · rw [List.mem_cons, List.mem_cons, ih]

theorem nodup_dedup (l : List Str) : (dedup l).Nodup := by
  induction l with
  | nil => exact .nil
  | cons y l ih =>
    unfold dedup
    split
    · exact ih
    · next h => exact List.nodup_cons.mpr ⟨fun hm => h ((mem_dedup _ _).mp hm), ih⟩

/-- Strictly sorted lists with the same elements are equal. -/
theorem sorted_ext {l m : List Str} (hl : l.Pairwise (· < ·)) (hm : m.Pairwise (· < ·)) (h : ∀ x, x ∈ l ↔ x ∈ m) : l = m := by
  induction l generalizing m with
  | nil =>
    cases m with
    | nil => rfl
    | cons y m => exact absurd ((h y).mpr List.mem_cons_self) (by simp)
  | cons x l ih =>
    cases m with
    | nil => exact absurd ((h x).mp List.mem_cons_self) (by simp)
    | cons y m =>
      have hl' := List.pairwise_cons.mp hl
      have hm' := List.pairwise_cons.mp hm
      have hxy : x = y := by
        rcases List.mem_cons.mp ((h x).mp List.mem_cons_self) with e | hx
        · exact e
        · rcases List.mem_cons.mp ((h y).mpr List.mem_cons_self) with e | hy
          · exact e.symm
          · exact absurd (List.lt_trans (hm'.1 x hx) (hl'.1 y hy)) (List.lt_irrefl _)
      subst hxy
      congr 1
      refine ih hl'.2 hm'.2 fun z => ?_
      constructor
      · intro hz
        rcases List.mem_cons.mp ((h z).mp (List.mem_cons_of_mem _ hz)) with rfl | hz'
        · exact absurd (hl'.1 z hz) (List.lt_irrefl _)
        · exact hz'
      · intro hz
        rcases List.mem_cons.mp ((h z).mpr (List.mem_cons_of_mem _ hz)) with rfl | hz'
        · exact absurd (hm'.1 z hz) (List.lt_irrefl _)
        · exact hz'

theorem sorted_dedup (l : List Str) : (sortStr (dedup l)).Pairwise (· < ·) := by
  have h1 := sortStr_sorted (dedup l)
  have h2 : (sortStr (dedup l)).Nodup := (sortStr_perm _).nodup_iff.mpr (nodup_dedup l)
  refine (List.Pairwise.and h1 h2).imp ?_
  rintro a b ⟨h, hne⟩
  rcases List.le_iff_lt_or_eq.mp h with h | h
  · exact h
  · exact absurd h hne

end Verif
