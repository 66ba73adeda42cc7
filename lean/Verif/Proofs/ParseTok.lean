import Verif.Proofs.Parse
/-!
# From pieces of text to tokens
-/
namespace Verif
open Spec

/-! ## ASCII letters -/

theorem toNat_ofNat {n : Nat} (h : n < 128) : (Char.ofNat n).toNat = n := by
  have hv : Nat.isValidChar n := by unfold Nat.isValidChar; omega
  rw [Char.ofNat, dif_pos hv]; rfl

theorem asciiUpper_isAscii {c : Char} (h : asciiUpper c = true) : isAscii c = true := by
  simp only [asciiUpper, isAscii, Bool.and_eq_true, decide_eq_true_eq] at *; omega

theorem asciiLower_isAscii {c : Char} (h : asciiLower c = true) : isAscii c = true := by
  simp only [asciiLower, isAscii, Bool.and_eq_true, decide_eq_true_eq] at *; omega

theorem asciiLower_not_upper {c : Char} (h : asciiLower c = true) : asciiUpper c = false := by
  simp only [asciiLower, asciiUpper, Bool.and_eq_true, decide_eq_true_eq] at *
  simp; omega

theorem asciiUpper_not_lower {c : Char} (h : asciiUpper c = true) : asciiLower c = false := by
  simp only [asciiLower, asciiUpper, Bool.and_eq_true, decide_eq_true_eq] at *
  simp; omega

theorem asciiToLower_of_upper {c : Char} (h : asciiUpper c = true) :
    (asciiToLower c).toNat = c.toNat + 32 := by
  rw [asciiToLower, if_pos h]
  simp only [asciiUpper, Bool.and_eq_true, decide_eq_true_eq] at h
  exact toNat_ofNat (by omega)

theorem asciiToLower_lower {c : Char} (h : asciiUpper c = true) : asciiLower (asciiToLower c) = true := by
  have := asciiToLower_of_upper h
  simp only [asciiUpper, asciiLower, Bool.and_eq_true, decide_eq_true_eq] at *
  omega

theorem asciiToUpper_toLower {c : Char} (h : asciiUpper c = true) : asciiToUpper (asciiToLower c) = c := by
  have h1 := asciiToLower_of_upper h
  rw [asciiToUpper, if_pos (asciiToLower_lower h), h1]
  simp [Char.ofNat_toNat]

theorem asciiToLower_id {c : Char} (h : asciiUpper c = false) : asciiToLower c = c := by
  simp [asciiToLower, h]

theorem asciiToLower_ascii {c : Char} (h : isAscii c = true) : isAscii (asciiToLower c) = true := by
  by_cases hu : asciiUpper c = true
  · exact asciiLower_isAscii (asciiToLower_lower hu)
  · rwa [asciiToLower_id (by simpa using hu)]

/-! ## `Word.from_` -/

theorem mkWord_val {u : Ucd} {s : Str} {cap : Cap} {w : Subtok} (h : mkWord u s cap = .ok w) : w = .word s cap := by
  unfold mkWord at h
  repeat' split at h
  all_goals first | exact (Except.ok.inj h).symm | exact absurd h (by simp)

theorem wordFrom_eq {u : Ucd} (hu : u.Laws) (c : Char) (r : Str) : wordFrom u (c :: r) = .ok
    (if u.isLower (c :: r) then .word (c :: r) .none
     else if u.isUpper (c :: r) then .word (u.toLower (c :: r)) .all
     else if u.isUpper [c] then .word (u.toLower [c] ++ r) .firstLetter
     else .word (c :: r) .undefined) := by
  obtain ⟨w, hw⟩ := wordFrom_ok u hu (c :: r) (by simp)
  rw [hw]
  unfold wordFrom at hw
  simp only at hw
  split
  · rename_i h1
    rw [if_pos h1] at hw
    rw [mkWord_val hw]
  · rename_i h1
    rw [if_neg h1] at hw
    split
    · rename_i h2
      rw [if_pos h2] at hw
      rw [mkWord_val hw]
    · rename_i h2
      rw [if_neg h2] at hw
      split
      · rename_i h3
        rw [if_pos h3] at hw
        rw [mkWord_val hw]
      · rename_i h3
        rw [if_neg h3] at hw
        rw [mkWord_val hw]

theorem isLower_ascii {u : Ucd} (hu : u.Laws) {s : Str} (h : ∀ c ∈ s, isAscii c = true) :
    u.isLower s = (s.all (fun c => !asciiUpper c) && s.any asciiLower) := by
  unfold Ucd.isLower
  congr 1
  · induction s with
    | nil => rfl
    | cons c r ih =>
      rw [List.all_cons, List.all_cons, ih (fun c hc => h c (by simp [hc])), hu.upper_ascii c (h c (by simp)),
        hu.title_ascii c (h c (by simp))]
      simp
  · induction s with
    | nil => rfl
    | cons c r ih =>
      rw [List.any_cons, List.any_cons, ih (fun c hc => h c (by simp [hc])), hu.lower_ascii c (h c (by simp))]

theorem isUpper_ascii {u : Ucd} (hu : u.Laws) {s : Str} (h : ∀ c ∈ s, isAscii c = true) :
    u.isUpper s = (s.all (fun c => !asciiLower c) && s.any asciiUpper) := by
  unfold Ucd.isUpper
  congr 1
  · induction s with
    | nil => rfl
    | cons c r ih =>
      rw [List.all_cons, List.all_cons, ih (fun c hc => h c (by simp [hc])), hu.lower_ascii c (h c (by simp)),
        hu.title_ascii c (h c (by simp))]
      simp
  · induction s with
    | nil => rfl
    | cons c r ih =>
      rw [List.any_cons, List.any_cons, ih (fun c hc => h c (by simp [hc])), hu.upper_ascii c (h c (by simp))]

/-- What becomes of a piece of an ASCII identifier. -/
inductive AsciiPiece : Str → Subtok → Prop
  | underscore : AsciiPiece ['_'] .underscore
  | lower {p} : p ≠ [] → (∀ c ∈ p, asciiLower c = true) → AsciiPiece p (.word p .none)
  | capitalised {c l} : asciiUpper c = true → l ≠ [] → (∀ c ∈ l, asciiLower c = true) →
      AsciiPiece (c :: l) (.word (asciiToLower c :: l) .firstLetter)
  | capitals {p} : p ≠ [] → (∀ c ∈ p, asciiUpper c = true) → AsciiPiece p (.word (p.map asciiToLower) .all)
  | other {p} : p ≠ [] → p ≠ ['_'] → (∀ c ∈ p, isAscii c = true ∧ asciiUpper c = false ∧ asciiLower c = false) →
      AsciiPiece p (.word p .undefined)

theorem AsciiPiece.partToSubtok {u : Ucd} (hu : u.Laws) {p : Str} {w : Subtok} (h : AsciiPiece p w) :
    partToSubtok u p = .ok w := by
  unfold Verif.partToSubtok
  cases h with
  | underscore => rfl
  | lower hne hall =>
    rw [if_pos (by rintro rfl; exact absurd (hall '_' (by simp)) (by decide))]
    cases p with
    | nil => exact absurd rfl hne
    | cons c r =>
      have h1 : u.isLower (c :: r) = true := by
        rw [isLower_ascii hu fun c hc => asciiLower_isAscii (hall c hc)]
        simp only [Bool.and_eq_true]
        constructor
        · rw [List.all_eq_true]; intro c hc; simp [asciiLower_not_upper (hall c hc)]
        · rw [List.any_eq_true]; exact ⟨c, by simp, hall c (by simp)⟩
      rw [wordFrom_eq hu, if_pos h1]
  | @capitalised c l hc hne hall =>
    have hasc : ∀ x ∈ c :: l, isAscii x = true := by
      intro x hx
      rcases List.mem_cons.mp hx with rfl | hx
      · exact asciiUpper_isAscii hc
      · exact asciiLower_isAscii (hall x hx)
    cases l with
    | nil => exact absurd rfl hne
    | cons d t =>
      rw [if_pos (by simp)]
      have hd := hall d (by simp)
      have h1 : u.isLower (c :: d :: t) = false := by rw [isLower_ascii hu hasc]; simp [hc]
      have h2 : u.isUpper (c :: d :: t) = false := by rw [isUpper_ascii hu hasc]; simp [hd]
      have h3 : u.isUpper [c] = true := by
        rw [isUpper_ascii hu (by intro x hx; exact hasc x (by simp at hx; simp [hx]))]
        simp [hc, asciiUpper_not_lower hc]
      rw [wordFrom_eq hu, h1, h2, h3, hu.toLower_ascii [c] (by simp [asciiUpper_isAscii hc])]
      rfl
  | capitals hne hall =>
    rw [if_pos (by rintro rfl; exact absurd (hall '_' (by simp)) (by decide))]
    cases p with
    | nil => exact absurd rfl hne
    | cons c r =>
      have hc := hall c (by simp)
      have hasc : ∀ x ∈ c :: r, isAscii x = true := fun x hx => asciiUpper_isAscii (hall x hx)
      have h1 : u.isLower (c :: r) = false := by rw [isLower_ascii hu hasc]; simp [hc]
      have h2 : u.isUpper (c :: r) = true := by
        rw [isUpper_ascii hu hasc]
        simp only [Bool.and_eq_true]
        constructor
        · rw [List.all_eq_true]; intro c hc; simp [asciiUpper_not_lower (hall c hc)]
        · rw [List.any_eq_true]; exact ⟨c, by simp, hc⟩
      rw [wordFrom_eq hu, h1, h2, hu.toLower_ascii _ (List.all_eq_true.mpr hasc)]
      rfl
  | other hne hu' hall =>
    rw [if_pos hu']
    cases p with
    | nil => exact absurd rfl hne
    | cons c r =>
      have hasc : ∀ x ∈ c :: r, isAscii x = true := fun x hx => (hall x hx).1
      have h1 : u.isLower (c :: r) = false := by
        rw [isLower_ascii hu hasc, Bool.and_eq_false_iff]
        right
        rw [List.any_eq_false]; intro c hc; simp [(hall c hc).2.2]
      have h2 : u.isUpper (c :: r) = false := by
        rw [isUpper_ascii hu hasc, Bool.and_eq_false_iff]
        right
        rw [List.any_eq_false]; intro c hc; simp [(hall c hc).2.1]
      have h3 : u.isUpper [c] = false := by
        rw [isUpper_ascii hu (by intro x hx; exact hasc x (by simp at hx; simp [hx]))]
        simp [(hall c (by simp)).2.1]
      rw [wordFrom_eq hu, h1, h2, h3]
      rfl

theorem map_toUpper_toLower {p : Str} (h : ∀ c ∈ p, asciiUpper c = true) :
    (p.map asciiToLower).map asciiToUpper = p := by
  rw [List.map_map]
  conv => rhs; rw [← List.map_id p]
  exact List.map_congr_left fun c hc => asciiToUpper_toLower (h c hc)

theorem map_toLower_id {p : Str} (h : ∀ c ∈ p, asciiUpper c = false) : p.map asciiToLower = p := by
  conv => rhs; rw [← List.map_id p]
  exact List.map_congr_left fun c hc => asciiToLower_id (h c hc)

theorem AsciiPiece.str {u : Ucd} (hu : u.Laws) {p : Str} {w : Subtok} (h : AsciiPiece p w) : w.str u = p := by
  cases h with
  | underscore => rfl
  | lower _ _ => rfl
  | @capitalised c l hc hne hall =>
    rw [Subtok.str, withPreservedCase, hu.capitalize_ascii]
    · simp only
      rw [asciiToUpper_toLower hc, map_toLower_id fun c hc => asciiLower_not_upper (hall c hc)]
    · rw [List.all_eq_true]
      intro x hx
      rcases List.mem_cons.mp hx with rfl | hx
      · exact asciiToLower_ascii (asciiUpper_isAscii hc)
      · exact asciiLower_isAscii (hall x hx)
  | capitals hne hall =>
    rw [Subtok.str, withPreservedCase, hu.toUpper_ascii, map_toUpper_toLower hall]
    rw [List.all_eq_true]
    intro x hx
    obtain ⟨y, hy, rfl⟩ := List.mem_map.mp hx
    exact asciiToLower_ascii (asciiUpper_isAscii (hall y hy))
  | other _ _ _ => rfl

/-- Element by element. -/
inductive Pieces : List Str → List Subtok → Prop
  | nil : Pieces [] []
  | cons {p w ps ws} : AsciiPiece p w → Pieces ps ws → Pieces (p :: ps) (w :: ws)

theorem identSplit_pieces {u : Ucd} (hu : u.Laws) {s : Str} {ps : List Str} (h : IdentSplit u s ps)
    (ha : ∀ c ∈ s, isAscii c = true) : ∃ ws, Pieces ps ws := by
  induction h with
  | nil => exact ⟨[], .nil⟩
  | underscore _ ih =>
    obtain ⟨ws, h⟩ := ih fun c hc => ha c (by simp [hc])
    exact ⟨_, .cons .underscore h⟩
  | @digits d r ps hd hall _ _ ih =>
    obtain ⟨ws, h⟩ := ih fun c hc => ha c (by simp [hc])
    refine ⟨_, .cons (.other hd ?_ ?_) h⟩
    · rintro rfl; exact absurd (hall '_' (by simp)) (by decide)
    · intro c hc
      have := hall c hc
      refine ⟨asciiDigit_isAscii this, ?_, ?_⟩ <;>
        simp only [asciiDigit, asciiUpper, asciiLower, Bool.and_eq_true, decide_eq_true_eq] at * <;> simp <;> omega
  | @lower l r ps hl hall _ _ ih =>
    obtain ⟨ws, h⟩ := ih fun c hc => ha c (by simp [hc])
    refine ⟨_, .cons (.lower hl ?_) h⟩
    intro c hc
    rw [← hu.reLower_ascii c (ha c (by simp [hc]))]
    exact hall c hc
  | @capitalised c l r ps hc hl hall _ _ ih =>
    obtain ⟨ws, h⟩ := ih fun c hc => ha c (by simp [hc])
    refine ⟨_, .cons (.capitalised ?_ hl ?_) h⟩
    · rw [← hu.reUpper_ascii c (ha c (by simp))]
      exact hc
    · intro c hc
      rw [← hu.reLower_ascii c (ha c (by simp [hc]))]
      exact hall c hc
  | @capitals w r ps hw hall _ _ _ ih =>
    obtain ⟨ws, h⟩ := ih fun c hc => ha c (by simp [hc])
    refine ⟨_, .cons (.capitals hw ?_) h⟩
    intro c hc
    rw [← hu.reUpper_ascii c (ha c (by simp [hc]))]
    exact hall c hc
  | @other c r ps h1 h2 h3 h4 h5 _ ih =>
    obtain ⟨ws, h⟩ := ih fun c hc => ha c (by simp [hc])
    have hac := ha c (by simp)
    refine ⟨_, .cons (.other (by simp) (by simpa using h2) ?_) h⟩
    intro x hx
    simp only [List.mem_singleton] at hx
    subst hx
    rw [hu.reUpper_ascii x hac] at h4
    rw [hu.reLower_ascii x hac] at h5
    exact ⟨hac, h4, h5⟩
  | space _ ih => exact ih fun c hc => ha c (by simp [hc])

theorem Pieces.mapM {u : Ucd} (hu : u.Laws) {ps : List Str} {ws : List Subtok} (h : Pieces ps ws) :
    ps.mapM (partToSubtok u) = .ok ws := by
  induction h with
  | nil => rfl
  | cons hp _ ih =>
    rw [List.mapM_cons, hp.partToSubtok hu, ih]
    rfl

theorem Pieces.strs {u : Ucd} (hu : u.Laws) {ps : List Str} {ws : List Subtok} (h : Pieces ps ws) :
    ws.map (Subtok.str u) = ps := by
  induction h with
  | nil => rfl
  | cons hp _ ih => rw [List.map_cons, hp.str hu, ih]

theorem identSplit_flatten {u : Ucd} {s : Str} {ps : List Str} (h : IdentSplit u s ps) (hs : ' ' ∉ s) : ps.flatten = s := by
  induction h with
  | nil => rfl
  | space _ _ => exact absurd hs (by simp)
  | underscore _ ih => simp at hs; simp [ih hs]
  | other _ _ _ _ _ _ ih => simp at hs; simp [ih hs.2]
  | digits _ _ _ _ ih => simp at hs; simp [ih hs.2]
  | lower _ _ _ _ ih => simp at hs; simp [ih hs.2]
  | capitalised _ _ _ _ _ ih => simp at hs; simp [ih hs.2.2]
  | capitals _ _ _ _ _ ih => simp at hs; simp [ih hs.2]

theorem identSplit_ne_nil {u : Ucd} {s : Str} {ps : List Str} (h : IdentSplit u s ps) : ∀ p ∈ ps, p ≠ [] := by
  induction h with
  | nil => simp
  | space _ ih => exact ih
  | underscore _ ih => intro p hp; simp at hp; rcases hp with rfl | hp; · simp
                       · exact ih p hp
  | other _ _ _ _ _ _ ih => intro p hp; simp at hp; rcases hp with rfl | hp; · simp
                            · exact ih p hp
  | digits hd _ _ _ ih => intro p hp; simp at hp; rcases hp with rfl | hp; · exact hd
                          · exact ih p hp
  | lower hd _ _ _ ih => intro p hp; simp at hp; rcases hp with rfl | hp; · exact hd
                         · exact ih p hp
  | capitalised _ _ _ _ _ ih => intro p hp; simp at hp; rcases hp with rfl | hp; · simp
                                · exact ih p hp
  | capitals hd _ _ _ _ ih => intro p hp; simp at hp; rcases hp with rfl | hp; · exact hd
                              · exact ih p hp

/-! ## Identifiers of ASCII characters -/

theorem splitIdentifier_ascii {u : Ucd} (hu : u.Laws) {s : Str} (ha : ∀ c ∈ s, isAscii c = true) (hs : ' ' ∉ s) :
    ∃ ps ws, IdentSplit u s ps ∧ Pieces ps ws ∧ splitIdentifier u s = .ok (.split ws) ∧ splitStr u ws = s := by
  obtain ⟨ps, hps⟩ := identSplit_total u s.length s (Nat.le_refl _)
  obtain ⟨ws, hws⟩ := identSplit_pieces hu hps ha
  refine ⟨ps, ws, hps, hws, ?_, ?_⟩
  · have : isNonEng s = false := by simp [isNonEng]; exact ha
    unfold splitIdentifier
    rw [(identSplit_iff hu s ps).mp hps, hws.mapM hu, this]
    rfl
  · rw [splitStr, hws.strs hu, concat_eq_flatten, identSplit_flatten hps hs]

/-- Identifier splitting does not fail. -/
theorem partToSubtok_ok {u : Ucd} (hu : u.Laws) {p : Str} (hp : p ≠ []) : ∃ w, partToSubtok u p = .ok w := by
  unfold partToSubtok
  split
  · exact wordFrom_ok u hu p hp
  · exact ⟨_, rfl⟩

theorem mapM_ok {α β : Type} {f : α → Except PyErr β} {l : List α} (h : ∀ a ∈ l, ∃ b, f a = .ok b) :
    ∃ bs, l.mapM f = .ok bs := by
  induction l with
  | nil => exact ⟨[], rfl⟩
  | cons a r ih =>
    obtain ⟨b, hb⟩ := h a (by simp)
    obtain ⟨bs, hbs⟩ := ih fun a ha => h a (by simp [ha])
    refine ⟨b :: bs, ?_⟩
    rw [List.mapM_cons, hb, hbs]
    rfl

theorem splitIdentifier_ok {u : Ucd} (hu : u.Laws) (s : Str) : ∃ subs, splitIdentifier u s =
    .ok (if isNonEng s then .nonEng subs else .split subs) := by
  have hps := (identSplit_iff hu s _).mpr rfl
  obtain ⟨subs, h⟩ := mapM_ok (f := partToSubtok u) fun p hp => partToSubtok_ok hu (identSplit_ne_nil hps p hp)
  exact ⟨subs, by unfold splitIdentifier; rw [h]; rfl⟩

theorem toParsedToken_ok {u : Ucd} (hu : u.Laws) (s : Str) : ∃ t, toParsedToken u s = .ok t := by
  unfold toParsedToken
  repeat' split
  all_goals first | exact ⟨_, rfl⟩ | skip
  obtain ⟨subs, h⟩ := splitIdentifier_ok hu s
  exact ⟨_, h⟩

end Verif
