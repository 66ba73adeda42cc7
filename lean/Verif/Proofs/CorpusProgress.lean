import Verif.Proofs.Corpus
import Verif.Proofs.WorkersProgress
/-!
# Calls for whole corpora can be finished
-/
namespace Verif.Corpus
open Verif Stage

/-- A step of a stage within a call. -/
def Goes (results : List (Bytes × Str)) (marks : Bool) (u v : World) : Prop := CallStep results marks u v ∧ v.pc ≠ .off

theorem goes_run (results : List (Bytes × Str)) (marks : Bool) (m : Option (Option Nat)) (arch : List (Nat × RDir)) (now : Nat) :
    ∀ (p : List (Bytes × Str)) (dir : Option RDir), dir ≠ none ∨ p ≠ [] →
      ∃ d, Spec.Star (Goes results marks) ⟨dir, m, arch, now, .run p⟩ ⟨some d, m, arch, now, .run []⟩
  | [], some d, _ => ⟨d, .refl⟩
  | [], none, h => by simp at h
  | r :: p, dir, _ => by
    by_cases h : r.1 ∈ (filesOf dir).map (·.name)
    · cases dir with
      | none => cases h
      | some d =>
        obtain ⟨d', h'⟩ := goes_run results marks m arch now p (some d) (.inl (by simp))
        exact ⟨d', Pool.star_trans (.tail .refl ⟨.skip (a := []) h, by simp⟩) h'⟩
    · obtain ⟨d', h'⟩ := goes_run results marks m arch now p (some ⟨now, addFile [] (filesOf dir) ⟨r.1, r.2, now⟩⟩) (.inl (by simp))
      exact ⟨d', Pool.star_trans (.tail .refl ⟨.write (a := []) (x := []) rfl h, by simp⟩) h'⟩

/-- A stage can be finished. -/
theorem goes_done {results : List (Bytes × Str)} (hr : results ≠ []) (marks : Bool) (d : RDir) (m : Option (Option Nat)) (arch : List (Nat × RDir))
    (now : Nat) (hb : ∀ t, timestamp d = .ok t → ¬ blocked arch t) :
    ∃ d' m' arch', Spec.Star (Goes results marks) ⟨some d, m, arch, now, .ready⟩ ⟨some d', m', arch', now, .done⟩ := by
  have fin : ∀ (dir : Option RDir) (m : Option (Option Nat)) (arch : List (Nat × RDir)),
      ∃ d' m' arch', Spec.Star (Goes results marks) ⟨dir, m, arch, now, .run results⟩ ⟨some d', m', arch', now, .done⟩ := by
    intro dir m arch
    obtain ⟨d', h1⟩ := goes_run results marks m arch now results dir (.inr hr)
    cases marks with
    | false => exact ⟨d', m, arch, .tail h1 ⟨.finished, by simp⟩⟩
    | true =>
      obtain ⟨t, ht⟩ := timestamp_ok d'
      exact ⟨d', some (some t), arch, .tail (.tail (.tail h1 ⟨.finished, by simp⟩) ⟨.mark, by simp⟩) ⟨.stamp ht, by simp⟩⟩
  cases m with
  | none =>
    obtain ⟨d', m', arch', h⟩ := fin (some d) none arch
    exact ⟨d', m', arch', Pool.star_trans (.tail .refl ⟨.notReady (.inr rfl), by simp⟩) h⟩
  | some m =>
    obtain ⟨t, ht⟩ := timestamp_ok d
    have h1 : Spec.Star (Goes results marks) ⟨some d, some m, arch, now, .ready⟩ ⟨some d, some m, arch, now, .compare⟩ :=
      .tail .refl ⟨.isReady, by simp⟩
    by_cases hm : m = some t
    · exact ⟨d, some m, arch, .tail h1 ⟨.upToDate ht hm, by simp⟩⟩
    · have h2 := Spec.Star.tail (.tail (.tail h1 ⟨.outdated ht hm, by simp⟩) ⟨.archive ht (hb t ht), by simp⟩) ⟨.archiveMarker, by simp⟩
      obtain ⟨d', m', arch', h⟩ := fin none none (putArchived arch t d)
      exact ⟨d', m', arch', Pool.star_trans h2 h⟩

/-- The first stage of a call. -/
theorem lift_parse {input : List (Bytes × Str)} {repr : Str → Str → Str} {c : Call} {w : CWorld} {p : Pc} {s : World} (hw : w.pc = .parse c p)
    (h : Spec.Star (Goes input c.caching) (w.parseStage p) s) :
    Spec.Star (CorpusStep input repr) w (w.putParse c s) := by
  induction h with
  | refl =>
    have : w.putParse c (w.parseStage p) = w := by
      obtain ⟨a, b, d, e, f, g, i⟩ := w
      cases hw
      rfl
    rw [this]
    exact .refl
  | @tail s s' h1 h2 ih => exact .tail ih (.parse (w := w.putParse c s) rfl h2.1 h2.2)

/-- The second stage of a call. -/
theorem lift_prep {input : List (Bytes × Str)} {repr : Str → Str → Str} {c : Call} {w : CWorld} {p : Pc} {s : World} {results : List (Bytes × Str)}
    (hw : w.pc = .prep c p) (hr : prepResults (input.map (·.1)) repr c.cfg (filesOf w.parsed.dir) = results)
    (hm : ∀ fs, ¬ Missing (input.map (·.1)) (filesOf w.parsed.dir) fs) (hd : w.parsed.dir ≠ none)
    (h : Spec.Star (Goes results true) (w.prepStage c.out c.cfg p) s) :
    Spec.Star (CorpusStep input repr) w (w.putPrep c s) := by
  have hu : ∀ (f : Str → Str → Place) (o k : Str), upd f o (upd (f o) k (f o k)) = f := by
    intro f o k
    funext x y
    by_cases h : x = o ∧ y = k
    · obtain ⟨rfl, rfl⟩ := h; rw [upd2_same]
    · rw [upd2_other _ _ h]
  have hv : ∀ (f : Str → List (Nat × RDir)) (k : Str), upd f k (f k) = f := by
    intro f k
    funext x
    by_cases h : x = k
    · subst h; rw [upd_same]
    · rw [upd_other _ _ h]
  induction h with
  | refl =>
    have : w.putPrep c (w.prepStage c.out c.cfg p) = w := by
      obtain ⟨a, b, d, e, f, g, i⟩ := w
      cases hw
      unfold CWorld.putPrep CWorld.prepStage
      simp only [hv]
      congr
      exact hu b c.out c.cfg
    rw [this]
    exact .refl
  | @tail s s' h1 h2 ih =>
    have h3 : CorpusStep input repr (w.putPrep c s) ((w.putPrep c s).putPrep c s') := by
      refine .prep (p := s.pc) rfl (fun _ _ => hd) (fun _ => hm _) ?_ h2.2
      · have : (w.putPrep c s).prepStage c.out c.cfg s.pc = s := by
          unfold CWorld.putPrep CWorld.prepStage
          simp only [upd2_same, upd_same]
        rw [this]
        show CallStep (prepResults (input.map (·.1)) repr c.cfg (filesOf w.parsed.dir)) _ _ _
        rw [hr]
        exact h2.1
    have h4 : (w.putPrep c s).putPrep c s' = w.putPrep c s' := by
      unfold CWorld.putPrep
      simp only
      congr 1
      · funext x y
        by_cases h : x = c.out ∧ y = c.cfg
        · obtain ⟨rfl, rfl⟩ := h; rw [upd2_same, upd2_same]
        · rw [upd2_other _ _ h, upd2_other _ _ h, upd2_other _ _ h]
      · funext x
        by_cases h : x = c.cfg
        · subst h; rw [upd_same, upd_same]
        · rw [upd_other _ _ h, upd_other _ _ h, upd_other _ _ h]
    rw [h4] at h3
    exact .tail ih h3

end Verif.Corpus
