import Verif.Proofs.Units
/-!
# Recorded tokens are shown

The tokens that the metadata of an output records as not to be split further are tokens of the output.
-/
namespace Verif
open Verif.Spec

/-- The recorded tokens of a full token are among its subtokens. -/
def Recorded (us : List FullTok) : Prop := ∀ x ∈ us, ∀ s ∈ x.nonproc, s ∈ x.subs

theorem recorded_none {x : FullTok} (h : x.nonproc = []) : Recorded [x] := by
  intro y hy s hs
  simp at hy
  subst hy
  rw [h] at hs
  cases hs

theorem recorded_append {a b : List FullTok} (ha : Recorded a) (hb : Recorded b) : Recorded (a ++ b) := by
  intro x hx
  rcases List.mem_append.mp hx with h | h
  · exact ha x h
  · exact hb x h

theorem recorded_retype {ty : Ty} {us : List FullTok} (h : Recorded us) : Recorded (retype ty us) := by
  intro x hx s hs
  obtain ⟨y, hy, rfl⟩ := List.mem_map.mp hx
  exact h y hy s hs

theorem recorded_number {rc : ReprConfig} {ty : Ty} {v : Str} {us : List FullTok} (h : numberUnits rc ty v = .ok us) : Recorded us := by
  unfold numberUnits at h
  split at h
  · cases hn : rc.numberSplitter v with
    | error e => simp [hn, bind, Except.bind] at h
    | ok l =>
      simp only [hn, bind, Except.bind, Except.ok.injEq] at h
      subst h
      exact recorded_none rfl
  · cases h
    exact recorded_none rfl

theorem recorded_whitespace (rc : ReprConfig) (ty : Ty) (s : Str) : Recorded (whitespaceUnits rc ty s) := by
  unfold whitespaceUnits
  split
  · intro x hx; cases hx
  · intro x hx t ht
    simp at hx
    subst hx
    exact ht

theorem recorded_nonProc {rc : ReprConfig} {ty : Ty} {s : Str} {us : List FullTok} (h : nonProcUnits rc ty s = .ok us) : Recorded us := by
  unfold nonProcUnits at h
  split at h
  · cases h
  · cases h
    intro x hx t ht
    simp at hx
    subst hx
    exact ht

theorem recorded_split {u : Ucd} {rc : ReprConfig} {subs : List Subtok} {us : List FullTok} (h : splitUnits u rc subs = .ok us) :
    Recorded us := by
  unfold splitUnits at h
  simp only [bind, Except.bind] at h
  repeat' split at h
  all_goals first
    | cases h; done
    | (cases h; exact recorded_none rfl)

theorem recorded_nonEng {u : Ucd} {rc : ReprConfig} {subs : List Subtok} {us : List FullTok} (h : nonEngUnits u rc subs = .ok us) :
    Recorded us := by
  unfold nonEngUnits at h
  simp only [bind, Except.bind] at h
  repeat' split at h
  all_goals first
    | cases h; done
    | exact recorded_split h
    | (cases h; exact recorded_none rfl)

mutual
theorem recorded_units {u : Ucd} {rc : ReprConfig} : (t : Tok) → ∀ us, Tok.units u rc t = .ok us → Recorded us
  | .number v, us, h => recorded_number (by simpa only [Tok.units] using h)
  | .one, us, h => recorded_number (by simpa only [Tok.units] using h)
  | .zero, us, h => recorded_number (by simpa only [Tok.units] using h)
  | .newLine, us, h => by simp only [Tok.units, Except.ok.injEq] at h; subst h; exact recorded_whitespace _ _ _
  | .tab, us, h => by simp only [Tok.units, Except.ok.injEq] at h; subst h; exact recorded_whitespace _ _ _
  | .spaceInString n, us, h => by
    simp only [Tok.units] at h
    split at h
    · cases h
    · cases h; exact recorded_none rfl
  | .keyWord s, us, h => recorded_nonProc (by simpa only [Tok.units] using h)
  | .operator s, us, h => recorded_nonProc (by simpa only [Tok.units] using h)
  | .semicolon, us, h => recorded_nonProc (by simpa only [Tok.units] using h)
  | .openingCurly, us, h => recorded_nonProc (by simpa only [Tok.units] using h)
  | .closingCurly, us, h => recorded_nonProc (by simpa only [Tok.units] using h)
  | .openingBracket, us, h => recorded_nonProc (by simpa only [Tok.units] using h)
  | .closingBracket, us, h => recorded_nonProc (by simpa only [Tok.units] using h)
  | .nonCodeChar s, us, h => recorded_nonProc (by simpa only [Tok.units] using h)
  | .specialToken s, us, h => recorded_nonProc (by simpa only [Tok.units] using h)
  | .split subs, us, h => recorded_split (by simpa only [Tok.units] using h)
  | .nonEng subs, us, h => recorded_nonEng (by simpa only [Tok.units] using h)
  | .oneLineComment ts, us, h => by
    have ih := recorded_unitsList (u := u) (rc := rc) false ts
    simp only [Tok.units] at h
    split at h
    · cases h; exact recorded_none rfl
    · cases hl : unitsList u rc false ts with
      | error e => simp [hl, bind, Except.bind] at h
      | ok vs =>
        simp only [hl, bind, Except.bind, Except.ok.injEq] at h
        subst h
        exact recorded_append (recorded_retype (ih vs hl)) (recorded_none rfl)
  | .multilineComment ts, us, h => by
    have ih := recorded_unitsList (u := u) (rc := rc) false ts
    simp only [Tok.units] at h
    split at h
    · cases h; exact recorded_none rfl
    · cases hl : unitsList u rc false ts with
      | error e => simp [hl, bind, Except.bind] at h
      | ok vs =>
        simp only [hl, bind, Except.bind, Except.ok.injEq] at h
        subst h
        exact recorded_retype (ih vs hl)
  | .stringLiteral ts len, us, h => by
    have ih := recorded_unitsList (u := u) (rc := rc) true ts
    simp only [Tok.units] at h
    split at h
    · cases h; exact recorded_none rfl
    · split at h
      · cases h
      · split at h
        · split at h
          · cases h; exact recorded_none rfl
          · cases h
            intro x hx t ht
            simp at hx
            subst hx
            simp at ht
            simp [ht]
        · split at h
          · simp only [bind, Except.bind] at h
            repeat' split at h
            all_goals first
              | cases h; done
              | (cases h; exact recorded_none rfl)
          · split at h
            · simp only [bind, Except.bind] at h
              repeat' split at h
              all_goals first
                | cases h; done
                | (cases h; exact recorded_none rfl)
            · cases hl : unitsList u rc true ts with
              | error e => simp [hl, bind, Except.bind] at h
              | ok vs =>
                simp only [hl, bind, Except.bind, Except.ok.injEq] at h
                subst h
                exact recorded_retype (ih vs hl)

theorem recorded_unitsList {u : Ucd} {rc : ReprConfig} (skip : Bool) : (ts : List Tok) → ∀ us, unitsList u rc skip ts = .ok us → Recorded us
  | [], us, h => by simp [unitsList] at h; subst h; intro x hx; cases hx
  | t :: r, us, h => by
    have ih1 := recorded_units (u := u) (rc := rc) t
    have ih2 := recorded_unitsList (u := u) (rc := rc) skip r
    have main : (do
        let a ← Tok.units u rc t
        let b ← unitsList u rc skip r
        Except.ok (a ++ b) : Except PyErr _) = .ok us → Recorded us := by
      intro h
      cases ha : Tok.units u rc t with
      | error e => simp [ha, bind, Except.bind] at h
      | ok a =>
        cases hb : unitsList u rc skip r with
        | error e => simp [ha, hb, bind, Except.bind] at h
        | ok b =>
          simp only [ha, hb, bind, Except.bind, Except.ok.injEq] at h
          subst h
          exact recorded_append (ih1 a ha) (ih2 b hb)
    cases skip
    · exact main (by simpa only [unitsList] using h)
    · cases t <;> first
        | (simp only [unitsList] at h; exact ih2 us h)
        | (simp only [unitsList] at h; exact main h)
end

theorem distinct_from (acc l : List Str) (ha : acc.Nodup) :
    (l.foldl (fun acc x => if x ∈ acc then acc else acc ++ [x]) acc).Nodup ∧
      ∀ s, s ∈ l.foldl (fun acc x => if x ∈ acc then acc else acc ++ [x]) acc ↔ s ∈ acc ∨ s ∈ l := by
  induction l generalizing acc with
  | nil => exact ⟨ha, by simp⟩
  | cons x r ih =>
    rw [List.foldl_cons]
    by_cases h : x ∈ acc
    · rw [if_pos h]
      obtain ⟨h1, h2⟩ := ih acc ha
      refine ⟨h1, fun s => (h2 s).trans ?_⟩
      constructor
      · rintro (h | h)
        · exact .inl h
        · exact .inr (List.mem_cons_of_mem _ h)
      · rintro (h' | h')
        · exact .inl h'
        · rcases List.mem_cons.mp h' with rfl | h'
          · exact .inl h
          · exact .inr h'
    · rw [if_neg h]
      obtain ⟨h1, h2⟩ := ih (acc ++ [x]) (by
        rw [List.nodup_append]
        refine ⟨ha, by simp, ?_⟩
        intro a ha' b hb e
        simp at hb
        subst hb
        exact h (e ▸ ha'))
      refine ⟨h1, fun s => (h2 s).trans ?_⟩
      simp [or_assoc]

/-- The recorded tokens of an output, each once, are tokens of the output. -/
theorem recorded_shown {env : Env} {c : PrepConfig} (hv : c.Valid) (hb : c.isBpe = false) {ts : List Tok} {bd : Option BpeData}
    {out : List Str} {md : Meta} (h : toRepr env c ts bd = .ok (out, md)) : md.nonproc.Nodup ∧ ∀ s ∈ md.nonproc, s ∈ out := by
  obtain ⟨rc, -, he⟩ := toRepr_eq (env := env) hv ts bd
  rw [he] at h
  cases hl : unitsList env.ucd rc false ts with
  | error e => rw [hl] at h; cases h
  | ok us =>
    rw [hl] at h
    simp only [Except.map, hb, Bool.false_eq_true, if_false, Except.ok.injEq, Prod.mk.injEq] at h
    obtain ⟨rfl, rfl⟩ := h
    obtain ⟨h1, h2⟩ := distinct_from [] (us.flatMap (·.nonproc)) List.nodup_nil
    refine ⟨h1, fun s hs => ?_⟩
    have hs := (h2 s).mp hs
    simp only [List.not_mem_nil, false_or, List.mem_flatMap] at hs
    obtain ⟨x, hx, hs⟩ := hs
    exact List.mem_flatten.mpr ⟨x.subs, List.mem_map_of_mem hx, recorded_unitsList false ts us hl x hx s hs⟩

end Verif
