import Verif.Model.Source
import Verif.Spec.Source
import Verif.Proofs.Files
/-!
# Lemmas about reading source files
-/
namespace Verif.Source
open Verif Verif.Spec

theorem u8 (n : Nat) (h : n < 256) : (UInt8.ofNat n).toNat = n := by
  simp [UInt8.toNat_ofNat', Nat.mod_eq_of_lt h]

theorem u8_toNat (b : UInt8) : UInt8.ofNat b.toNat = b := by simp

theorem char_range (c : Char) : c.val.toNat < 55296 ∨ 57343 < c.val.toNat ∧ c.val.toNat < 1114112 := by
  have := c.valid
  simpa [UInt32.isValidChar, Nat.isValidChar] using this

theorem isCont_iff {b : UInt8} : isCont b = true ↔ 128 ≤ b.toNat ∧ b.toNat < 192 := by
  simp [isCont]

theorem ofNat_val (c : Char) : Char.ofNat c.val.toNat = c := Char.ofNat_toNat c

theorem decode_cons (c : Char) (r : Bytes) : decodeUtf8 (String.utf8EncodeChar c ++ r) = (c :: ·) <$> decodeUtf8 r := by
  have hr := char_range c
  have hc := ofNat_val c
  unfold String.utf8EncodeChar
  generalize hv : c.val.toNat = v at *
  simp only
  by_cases h1 : v ≤ 0x7f
  · rw [if_pos h1]
    simp only [List.cons_append, List.nil_append]
    rw [decodeUtf8.eq_def]
    simp only
    rw [u8 _ (by omega), if_pos (by omega), hc]
  · rw [if_neg h1]
    by_cases h2 : v ≤ 0x7ff
    · rw [if_pos h2]
      simp only [List.cons_append, List.nil_append]
      rw [decodeUtf8.eq_def]
      simp only [isCont_iff]
      rw [u8 _ (by omega), u8 _ (by omega), if_neg (by omega), if_pos (by omega)]
      rw [show (v / 64 % 32 + 192 - 192) * 64 + (v % 64 + 128 - 128) = v by omega, hc]
    · rw [if_neg h2]
      by_cases h3 : v ≤ 0xffff
      · rw [if_pos h3]
        simp only [List.cons_append, List.nil_append]
        rw [decodeUtf8.eq_def]
        simp only [isCont_iff]
        rw [u8 _ (by omega), u8 _ (by omega), u8 _ (by omega), if_neg (by omega), if_neg (by omega), if_pos (by omega)]
        rw [show (v / 4096 % 16 + 224 - 224) * 4096 + (v / 64 % 64 + 128 - 128) * 64 + (v % 64 + 128 - 128) = v by omega, hc]
      · rw [if_neg h3]
        simp only [List.cons_append, List.nil_append]
        rw [decodeUtf8.eq_def]
        simp only [isCont_iff]
        rw [u8 _ (by omega), u8 _ (by omega), u8 _ (by omega), u8 _ (by omega), if_neg (by omega), if_neg (by omega), if_neg (by omega),
          if_pos (by omega)]
        rw [show (v / 262144 % 8 + 240 - 240) * 262144 + (v / 4096 % 64 + 128 - 128) * 4096 + (v / 64 % 64 + 128 - 128) * 64 +
          (v % 64 + 128 - 128) = v by omega, hc]

theorem decode_encode (s : Str) : decodeUtf8 (encodeUtf8 s) = some s := by
  induction s with
  | nil => rfl
  | cons c r ih =>
    rw [show encodeUtf8 (c :: r) = String.utf8EncodeChar c ++ encodeUtf8 r from rfl, decode_cons, ih]
    rfl

theorem ofNat_val_eq {n : Nat} (h : n < 55296 ∨ 57343 < n ∧ n < 1114112) : (Char.ofNat n).val.toNat = n := by
  have hv : n.isValidChar := h
  rw [Char.ofNat, dif_pos hv]
  rfl

theorem encode_one {a : UInt8} (h : a.toNat < 128) : String.utf8EncodeChar (Char.ofNat a.toNat) = [a] := by
  unfold String.utf8EncodeChar
  simp only [ofNat_val_eq (n := a.toNat) (by omega)]
  rw [if_pos (by omega), u8_toNat]

theorem encode_two {a b : UInt8} (h : 194 ≤ a.toNat ∧ a.toNat < 224 ∧ isCont b = true) :
    String.utf8EncodeChar (Char.ofNat ((a.toNat - 192) * 64 + (b.toNat - 128))) = [a, b] := by
  simp only [isCont_iff] at h
  unfold String.utf8EncodeChar
  simp only [ofNat_val_eq (n := (a.toNat - 192) * 64 + (b.toNat - 128)) (by omega)]
  rw [if_neg (by omega), if_pos (by omega)]
  rw [show ((a.toNat - 192) * 64 + (b.toNat - 128)) / 64 % 32 + 192 = a.toNat by omega,
    show ((a.toNat - 192) * 64 + (b.toNat - 128)) % 64 + 128 = b.toNat by omega, u8_toNat, u8_toNat]

theorem encode_three {a b c : UInt8} (h : 224 ≤ a.toNat ∧ a.toNat < 240 ∧ isCont b = true ∧ isCont c = true ∧
    (a.toNat = 224 → 160 ≤ b.toNat) ∧ (a.toNat = 237 → b.toNat < 160)) :
    String.utf8EncodeChar (Char.ofNat ((a.toNat - 224) * 4096 + (b.toNat - 128) * 64 + (c.toNat - 128))) = [a, b, c] := by
  simp only [isCont_iff] at h
  generalize hn : (a.toNat - 224) * 4096 + (b.toNat - 128) * 64 + (c.toNat - 128) = n
  unfold String.utf8EncodeChar
  simp only [ofNat_val_eq (n := n) (by omega)]
  rw [if_neg (by omega), if_neg (by omega), if_pos (by omega)]
  rw [show n / 4096 % 16 + 224 = a.toNat by omega, show n / 64 % 64 + 128 = b.toNat by omega, show n % 64 + 128 = c.toNat by omega,
    u8_toNat, u8_toNat, u8_toNat]

theorem encode_four {a b c d : UInt8} (h : 240 ≤ a.toNat ∧ a.toNat < 245 ∧ isCont b = true ∧ isCont c = true ∧ isCont d = true ∧
    (a.toNat = 240 → 144 ≤ b.toNat) ∧ (a.toNat = 244 → b.toNat < 144)) :
    String.utf8EncodeChar (Char.ofNat ((a.toNat - 240) * 262144 + (b.toNat - 128) * 4096 + (c.toNat - 128) * 64 + (d.toNat - 128))) =
      [a, b, c, d] := by
  simp only [isCont_iff] at h
  generalize hn : (a.toNat - 240) * 262144 + (b.toNat - 128) * 4096 + (c.toNat - 128) * 64 + (d.toNat - 128) = n
  unfold String.utf8EncodeChar
  simp only [ofNat_val_eq (n := n) (by omega)]
  rw [if_neg (by omega), if_neg (by omega), if_neg (by omega)]
  rw [show n / 262144 % 8 + 240 = a.toNat by omega, show n / 4096 % 64 + 128 = b.toNat by omega,
    show n / 64 % 64 + 128 = c.toNat by omega, show n % 64 + 128 = d.toNat by omega, u8_toNat, u8_toNat, u8_toNat, u8_toNat]

theorem encode_decode : ∀ (b : Bytes) (s : Str), decodeUtf8 b = some s → encodeUtf8 s = b := by
  intro b
  have step : ∀ (c : Char) (r : Bytes) (s : Str), (∀ t, decodeUtf8 r = some t → encodeUtf8 t = r) →
      (c :: ·) <$> decodeUtf8 r = some s → encodeUtf8 s = String.utf8EncodeChar c ++ r := by
    intro c r s ih h
    cases hd : decodeUtf8 r with
    | none => rw [hd] at h; cases h
    | some t =>
      rw [hd] at h
      have : c :: t = s := Option.some.inj h
      rw [← this, show encodeUtf8 (c :: t) = String.utf8EncodeChar c ++ encodeUtf8 t from rfl, ih t hd]
  induction b using decodeUtf8.induct with
  | case1 => intro s h; rw [decodeUtf8] at h; cases h; rfl
  | case2 a r h1 ih =>
    intro s h
    rw [decodeUtf8.eq_def] at h
    simp only [if_pos h1] at h
    rw [step _ _ _ ih h, encode_one h1]; rfl
  | case3 a h1 =>
    intro s h
    rw [decodeUtf8.eq_def] at h
    simp only [if_neg h1] at h
    cases h
  | case4 a h1 b r h2 ih =>
    intro s h
    rw [decodeUtf8.eq_def] at h
    simp only [if_neg h1, if_pos h2] at h
    rw [step _ _ _ ih h, encode_two h2]; rfl
  | case5 a h1 b h2 =>
    intro s h
    rw [decodeUtf8.eq_def] at h
    simp only [if_neg h1, if_neg h2] at h
    cases h
  | case6 a h1 b h2 c r h3 ih =>
    intro s h
    rw [decodeUtf8.eq_def] at h
    simp only [if_neg h1, if_neg h2, if_pos h3] at h
    rw [step _ _ _ ih h, encode_three h3]; rfl
  | case7 a h1 b h2 c h3 =>
    intro s h
    rw [decodeUtf8.eq_def] at h
    simp only [if_neg h1, if_neg h2, if_neg h3] at h
    cases h
  | case8 a h1 b h2 c h3 d r h4 ih =>
    intro s h
    rw [decodeUtf8.eq_def] at h
    simp only [if_neg h1, if_neg h2, if_neg h3, if_pos h4] at h
    rw [step _ _ _ ih h, encode_four h4]; rfl
  | case9 a h1 b h2 c h3 d r h4 =>
    intro s h
    rw [decodeUtf8.eq_def] at h
    simp only [if_neg h1, if_neg h2, if_neg h3, if_neg h4] at h
    cases h

theorem decode_iff (b : Bytes) (s : Str) : decodeUtf8 b = some s ↔ b = encodeUtf8 s :=
  ⟨fun h => (encode_decode b s h).symm, fun h => by rw [h, decode_encode]⟩

/-! ## Lines -/

theorem fileLines_none {t : Str} (h : '\n' ∉ t) (hne : t ≠ []) : fileLines t = [t] := by
  induction t with
  | nil => exact absurd rfl hne
  | cons c r ih =>
    have hc : c ≠ '\n' := fun e => h (by rw [e]; exact List.mem_cons_self)
    have hr : '\n' ∉ r := fun e => h (List.mem_cons_of_mem _ e)
    rw [fileLines, if_neg hc]
    cases r with
    | nil => rfl
    | cons d l => rw [ih hr (by simp)]

theorem rstripNl_none {t : Str} (h : '\n' ∉ t) : rstripNl t = t := by
  unfold rstripNl
  have : ∀ l : Str, '\n' ∉ l → l.dropWhile (· = '\n') = l := by
    intro l hl
    cases l with
    | nil => rfl
    | cons c r =>
      have hc : c ≠ '\n' := fun e => hl (by rw [e]; exact List.mem_cons_self)
      rw [List.dropWhile_cons, if_neg (by simpa using hc)]
  rw [this _ (by simpa using h), List.reverse_reverse]

theorem fileLines_ne {t : Str} (h : t ≠ []) : fileLines t ≠ [] := by
  cases t with
  | nil => exact absurd rfl h
  | cons c r =>
    rw [fileLines]
    split
    · simp
    · split <;> simp

theorem join_lines (t : Str) : pyJoin ['\n'] ((fileLines t).map rstripNl) = unend t := by
  induction h : t.length using Nat.strongRecOn generalizing t with
  | ind n ih =>
    by_cases hn : '\n' ∈ t
    · obtain ⟨b, r, hb, rfl⟩ : ∃ b r, '\n' ∉ b ∧ t = b ++ '\n' :: r := by
        clear ih h
        induction t with
        | nil => simp at hn
        | cons c l il =>
          by_cases hc : c = '\n'
          · exact ⟨[], l, by simp, by simp [hc]⟩
          · obtain ⟨b, r, h1, h2⟩ := il (by
              rcases List.mem_cons.mp hn with e | e
              · exact absurd e.symm hc
              · exact e)
            refine ⟨c :: b, r, ?_, by simp [h2]⟩
            intro e
            rcases List.mem_cons.mp e with e | e
            · exact hc e.symm
            · exact h1 e
      rw [fileLines_line hb, List.map_cons, rstripNl_line hb]
      have hr := ih r.length (by subst h; simp; omega) r rfl
      by_cases hrn : r = []
      · subst hrn
        simp [fileLines, pyJoin, unend]
      · have hne : (fileLines r).map rstripNl ≠ [] := by simpa using fileLines_ne hrn
        cases hm : (fileLines r).map rstripNl with
        | nil => exact absurd hm hne
        | cons x xs =>
          rw [pyJoin, ← hm, hr]
          unfold unend
          have hl : (b ++ '\n' :: r).getLast? = r.getLast? := by
            cases r with
            | nil => exact absurd rfl hrn
            | cons d l => simp [List.getLast?_append, List.getLast?_cons]
          by_cases hd : r.getLast? = some '\n'
          · rw [if_pos hd, if_pos (hl.trans hd), List.dropLast_append_of_ne_nil (by simp), List.dropLast_cons_of_ne_nil hrn]
            simp
          · rw [if_neg hd, if_neg (fun e => hd (hl.symm.trans e))]
            simp
    · by_cases he : t = []
      · subst he; rfl
      · rw [fileLines_none hn he, List.map_singleton, rstripNl_none hn, pyJoin, unend, if_neg]
        intro hl
        exact hn (List.mem_of_getLast? hl)

theorem univNl_no_cr (t : Str) : '\r' ∉ univNl t := by
  fun_induction univNl t with
  | case1 => simp
  | case2 r ih => simp [ih]
  | case3 r _ ih => simp [ih]
  | case4 c r h1 h2 ih =>
    intro hm
    rcases List.mem_cons.mp hm with e | e
    · exact h2 e.symm
    · exact ih e

theorem unend_mem {t : Str} {c : Char} (h : c ∈ unend t) : c ∈ t := by
  unfold unend at h
  split at h
  · exact (List.dropLast_sublist t).subset h
  · exact h

end Verif.Source
