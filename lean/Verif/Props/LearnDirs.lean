import Verif.Props.CliLearn
import Verif.Props.DirNames
import Verif.Props.LearnText
import Verif.Spec.VocabLoader
/-!
# C61: the directory for the merges of a command
-/
namespace Verif.Props
open Verif Spec

/-- **C61** Two commands `learn-bpe` store their merges in the same directory only if they are for datasets with the same name, changed
at the same time, with the same extensions in the same order and the same settings; provided that the names do not contain `_-_` or a line
break, and the extensions no `_`. -/
theorem C61_directory_partial (h h' : Host) (path path' : Str) (ext ext' : Option Str) {b b' : BpeConfig} (hb : IsBpeConfig b) (hb' : IsBpeConfig b')
    (ht : IsTimestamp (h.timestamp path)) (ht' : IsTimestamp (h'.timestamp path'))
    (hx : PlainExts ((normalizeExtensions ext).getD [])) (hx' : PlainExts ((normalizeExtensions ext').getD []))
    (hp : PlainDataset (datasetDirName path (h.timestamp path) (normalizeExtensions ext)))
    (hp' : PlainDataset (datasetDirName path' (h'.timestamp path') (normalizeExtensions ext'))) :
    learnDir h path ext b = learnDir h' path' ext' b' ↔
      basename path = basename path' ∧ h.timestamp path = h'.timestamp path' ∧
      (normalizeExtensions ext).getD [] = (normalizeExtensions ext').getD [] ∧
      b.wordEnd = b'.wordEnd ∧ b.unicode = b'.unicode ∧ b.case = b'.case := by
  constructor
  · intro he
    unfold learnDir at he
    have h1 := C43_base_dir_partial hb hp.1 hp.2
    rw [he, C43_base_dir_partial hb' hp'.1 hp'.2] at h1
    have h2 := Except.ok.inj h1
    unfold baseBpeVocabDirName at h2
    obtain ⟨h3, -⟩ := List.append_inj' h2 (by rw [toStr_length (toPrepConfig_valid b), toStr_length (toPrepConfig_valid b')])
    have h4 := List.append_cancel_right h3
    rw [← h4] at he
    obtain ⟨a1, a2, a3⟩ := C42_datasets_partial ht ht' hx hx' h4.symm
    exact ⟨a1, a2, a3, C42_bpe _ hb hb' he⟩
  · rintro ⟨a1, a2, a3, a4, a5, a6⟩
    unfold learnDir bpeDirName
    have e1 : datasetDirName path (h.timestamp path) (normalizeExtensions ext) = datasetDirName path' (h'.timestamp path') (normalizeExtensions ext') := by
      rw [datasetDirName_eq, datasetDirName_eq, a1, a2, a3]
    have e2 : b.toSuffix = b'.toSuffix := by
      unfold BpeConfig.toSuffix
      rw [a4, a5, a6]
    simp only [e1, e2]

/-- Two commands for a dataset with different extensions. -/
example (h : Host) (ht : h.timestamp "/x/proj".toList = demoTs) :
    learnDir h "/x/proj".toList (some "java".toList) ⟨"yes".toList, false, "code".toList, "yes".toList⟩ ≠
      learnDir h "/x/proj".toList (some "py".toList) ⟨"yes".toList, false, "code".toList, "yes".toList⟩ := by
  have hb : IsBpeConfig ⟨"yes".toList, false, "code".toList, "yes".toList⟩ := (isBpeConfig_iff _).mpr (by decide)
  have habs : ∀ s : Str, ¬ "_-_".toList <:+: s → Absent "_-_".toList s := fun s hs ⟨p, q, e⟩ => hs ⟨p, q, e.symm⟩
  have hplain : ∀ e : Str, e.length ≠ 17 → '_' ∉ e → PlainExts [e] := by
    intro e h1 h2 x hx
    rw [List.mem_singleton.mp hx]
    exact ⟨h2, not_timestamp_of_length h1⟩
  have e1 : normalizeExtensions (some "java".toList) = some ["java".toList] := by decide +kernel
  have e2 : normalizeExtensions (some "py".toList) = some ["py".toList] := by decide +kernel
  rw [Ne, C61_directory_partial h h _ _ _ _ hb hb (by rw [ht]; exact demoTs_is) (by rw [ht]; exact demoTs_is) (by rw [e1]; exact hplain _ (by decide) (by decide))
    (by rw [e2]; exact hplain _ (by decide) (by decide)) (by rw [ht, e1]; exact ⟨by decide +kernel, habs _ (by decide +kernel)⟩)
    (by rw [ht, e2]; exact ⟨by decide +kernel, habs _ (by decide +kernel)⟩), e1, e2]
  rintro ⟨-, -, e, -⟩
  exact absurd e (by decide)

end Verif.Props
