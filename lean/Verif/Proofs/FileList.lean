import Verif.Model.FileList
import Verif.Proofs.Files
/-!
# Lemmas about lists of files
-/
namespace Verif

theorem UInt8.ofNat_toNat' (b : UInt8) : UInt8.ofNat b.toNat = b := by simp

theorem charByte (b : UInt8) : (Char.ofNat b.toNat).toNat = b.toNat := by
  have h : b.toNat < 256 := b.toNat_lt
  have hv : b.toNat.isValidChar := .inl (by omega)
  rw [Char.ofNat, dif_pos hv]
  rfl

/-- One byte of a representation is read in one round. -/
theorem bytesBody_reprByte {q : Char} (hq : q = '\'' ∨ q = '"') (n : Nat) (b : UInt8) (r : Str) :
    bytesBody q (n + 1) (reprByte q b ++ r) = (bytesBody q n r).bind fun t => .ok (b :: t.1, t.2) := by
  have hb := UInt8.ofNat_toNat' b
  have hlt : b.toNat < 256 := b.toNat_lt
  have hc := charByte b
  have hqn : q.toNat = 39 ∨ q.toNat = 34 := by rcases hq with rfl | rfl <;> simp
  have hne : ('\\' : Char) ≠ q := by rcases hq with rfl | rfl <;> decide
  have ext : ∀ m, b.toNat = m → b = UInt8.ofNat m := by rintro m rfl; exact hb.symm
  unfold reprByte
  simp only
  split
  · next h =>
    have : bytesEscape (Char.ofNat b.toNat :: r) = some ([b], r) := by
      have h3 : b.toNat = 92 ∨ b.toNat = 39 ∨ b.toNat = 34 := by omega
      rcases h3 with h3 | h3 | h3 <;> rw [ext _ h3] <;> rfl
    simp only [List.cons_append, List.nil_append, bytesBody, if_neg hne, if_true, this]
    rfl
  split
  · next h => rw [ext _ h]; simp only [List.cons_append, List.nil_append, bytesBody, if_neg hne, if_true]; rfl
  split
  · next h => rw [ext _ h]; simp only [List.cons_append, List.nil_append, bytesBody, if_neg hne, if_true]; rfl
  split
  · next h => rw [ext _ h]; simp only [List.cons_append, List.nil_append, bytesBody, if_neg hne, if_true]; rfl
  split
  · next h =>
    have e := takeHex_hexN 2 b.toNat 0 r (by omega)
    simp only [Nat.zero_mul, Nat.zero_add] at e
    have : bytesEscape ('x' :: (hexN 2 b.toNat ++ r)) = some ([b], r) := by
      show (takeHex 2 0 (hexN 2 b.toNat ++ r)).map _ = _
      rw [e]
      simp
    simp only [List.cons_append, bytesBody, if_neg hne, if_true, this]
    rfl
  · next h1 h2 h3 h4 h5 =>
    have e1 : Char.ofNat b.toNat ≠ q := by intro e; rw [← e, hc] at h1; omega
    have e2 : Char.ofNat b.toNat ≠ '\\' := by
      intro e; rw [e] at hc; simp at hc; omega
    have e3 : ¬ (Char.ofNat b.toNat = '\n' ∨ 128 ≤ (Char.ofNat b.toNat).toNat) := by
      rintro (e | e)
      · rw [e] at hc; simp at hc; omega
      · rw [hc] at e; omega
    simp only [List.cons_append, List.nil_append, bytesBody, if_neg e1, if_neg e2, if_neg e3]
    rw [hc, hb]
    rfl

theorem bytesBody_repr {q : Char} (hq : q = '\'' ∨ q = '"') (b : Bytes) (n : Nat) (hn : b.length < n) (r : Str) :
    bytesBody q n (b.flatMap (reprByte q) ++ q :: r) = .ok (b, r) := by
  induction b generalizing n with
  | nil =>
    cases n with
    | zero => simp at hn
    | succ n => simp [bytesBody]
  | cons x b ih =>
    cases n with
    | zero => simp at hn
    | succ n =>
      rw [List.flatMap_cons, List.append_assoc, bytesBody_reprByte hq, ih n (by simpa using hn)]
      rfl

theorem reprByte_length (q : Char) (b : UInt8) : 1 ≤ (reprByte q b).length := by
  unfold reprByte
  simp only
  repeat' split
  all_goals simp

theorem bytesBody_cut {q : Char} (hq : q = '\'' ∨ q = '"') (n : Nat) (b : UInt8) (p t : Str) (h : p ++ t = reprByte q b) (ht : t ≠ [])
    (hn : p.length ≤ n) : bytesBody q n p = .error .syntaxError := by
  have hne : ('\\' : Char) ≠ q := by rcases hq with rfl | rfl <;> decide
  -- `p` is empty, a backslash, or a backslash, an `x` and at most one digit
  have : p = [] ∨ p = ['\\'] ∨ p = ['\\', 'x'] ∨ ∃ d, p = ['\\', 'x', d] := by
    have len : ∀ {k : Nat} {l : Str}, l.length = k + 1 → p ++ t = l → p.length ≤ k := by
      intro k l hl e
      have h1 := congrArg List.length e
      have h2 : 0 < t.length := List.length_pos_iff.mpr ht
      rw [List.length_append, hl] at h1
      omega
    have one : ∀ {x y : Char}, p ++ t = [x, y] → p = [] ∨ p = [x] := by
      intro x y e
      have hl := len (k := 1) rfl e
      match p, hl, e with
      | [], _, _ => exact .inl rfl
      | [z], _, e => simp at e; exact .inr (by rw [e.1])
    unfold reprByte at h
    simp only at h
    split at h
    · rcases one h with h | h <;> simp [h]
    split at h
    · rcases one h with h | h <;> simp [h]
    split at h
    · rcases one h with h | h <;> simp [h]
    split at h
    · rcases one h with h | h <;> simp [h]
    split at h
    · have hl := len (k := 3) (by simp [hexN]) h
      match p, hl, h with
      | [], _, _ => exact .inl rfl
      | [z], _, e => simp at e; exact .inr (.inl (by rw [e.1]))
      | [z, y], _, e => simp at e; exact .inr (.inr (.inl (by rw [e.1, e.2.1])))
      | [z, y, d], _, e => simp at e; exact .inr (.inr (.inr ⟨d, by rw [e.1, e.2.1]⟩))
    · have hl := len (k := 0) rfl h
      exact .inl (List.length_eq_zero_iff.mp (by omega))
  rcases this with rfl | rfl | rfl | ⟨d, rfl⟩
  · cases n <;> rfl
  · cases n with
    | zero => simp at hn
    | succ n => simp only [bytesBody, if_neg hne, if_true]; rfl
  · cases n with
    | zero => simp at hn
    | succ n => simp only [bytesBody, if_neg hne, if_true]; rfl
  · cases n with
    | zero => simp at hn
    | succ n =>
      have : bytesEscape ['x', d] = none := by
        show (takeHex 2 0 [d]).map _ = none
        unfold takeHex takeHex
        cases hexVal d <;> rfl
      simp only [bytesBody, if_neg hne, if_true, this]

/-- A body without its quote is rejected. -/
theorem bytesBody_prefix {q : Char} (hq : q = '\'' ∨ q = '"') (b : Bytes) (p : Str) (h : p <+: b.flatMap (reprByte q)) (n : Nat)
    (hn : p.length ≤ n) : bytesBody q n p = .error .syntaxError := by
  induction b generalizing p n with
  | nil =>
    obtain rfl : p = [] := by simpa using h
    cases n <;> rfl
  | cons x b ih =>
    rw [List.flatMap_cons] at h
    obtain ⟨t, ht⟩ := h
    rcases List.append_eq_append_iff.mp ht with ⟨u, e1, e2⟩ | ⟨u, e1, e2⟩
    · by_cases hu : u = []
      · subst hu
        rw [List.append_nil] at e1
        cases n with
        | zero =>
          obtain rfl : p = [] := List.length_eq_zero_iff.mp (by omega)
          rfl
        | succ n =>
          have h0 := bytesBody_reprByte hq n x []
          rw [List.append_nil] at h0
          rw [← e1, h0]
          cases n <;> rfl
      · exact bytesBody_cut hq n x p u e1.symm hu hn
    · subst e1
      have hl := reprByte_length q x
      rw [List.length_append] at hn
      cases n with
      | zero => omega
      | succ n =>
        rw [bytesBody_reprByte hq, ih u ⟨t, e2.symm⟩ n (by omega)]
        rfl

theorem reprBytes_length (q : Char) (b : Bytes) : b.length ≤ (b.flatMap (reprByte q)).length := by
  induction b with
  | nil => simp
  | cons x b ih =>
    have := reprByte_length q x
    simp only [List.flatMap_cons, List.length_append, List.length_cons]
    omega

theorem reprQuote_cases (b : Bytes) : reprQuote b = '\'' ∨ reprQuote b = '"' := by
  unfold reprQuote
  split
  · exact .inr rfl
  · exact .inl rfl

theorem literalEval_repr (b : Bytes) : literalEvalBytes (bytesRepr b ++ ['\n']) = .ok b := by
  have hq := reprQuote_cases b
  have hl := reprBytes_length (reprQuote b) b
  unfold bytesRepr
  simp only [List.cons_append, List.append_assoc, List.nil_append, literalEvalBytes, if_pos hq]
  rw [bytesBody_repr hq b _ (by rw [List.length_append, List.length_cons]; omega)]
  rfl

theorem reprByte_printable {q : Char} (hq : q = '\'' ∨ q = '"') (b : UInt8) :
    ∀ c ∈ reprByte q b, 32 ≤ c.toNat ∧ c.toNat < 127 := by
  have hc := charByte b
  have hqn : q.toNat = 39 ∨ q.toNat = 34 := by rcases hq with rfl | rfl <;> simp
  intro c
  unfold reprByte
  simp only
  split
  · intro h
    simp only [List.mem_cons, List.not_mem_nil, or_false] at h
    rcases h with rfl | rfl
    · decide
    · omega
  split
  · intro h; simp at h; rcases h with rfl | rfl <;> decide
  split
  · intro h; simp at h; rcases h with rfl | rfl <;> decide
  split
  · intro h; simp at h; rcases h with rfl | rfl <;> decide
  split
  · intro h
    rcases List.mem_cons.mp h with rfl | h
    · decide
    · rcases List.mem_cons.mp h with rfl | h
      · decide
      · exact hexN_printable 2 _ c h
  · intro h
    simp only [List.mem_cons, List.not_mem_nil, or_false] at h
    subst h
    omega

theorem bytesRepr_printable (b : Bytes) : ∀ c ∈ bytesRepr b, 32 ≤ c.toNat ∧ c.toNat < 127 := by
  have hq := reprQuote_cases b
  intro c hc
  have hqp : 32 ≤ (reprQuote b).toNat ∧ (reprQuote b).toNat < 127 := by rcases hq with e | e <;> rw [e] <;> decide
  unfold bytesRepr at hc
  rcases List.mem_cons.mp hc with rfl | hc
  · decide
  · rcases List.mem_cons.mp hc with rfl | hc
    · exact hqp
    · rcases List.mem_append.mp hc with hc | hc
      · obtain ⟨x, _, hx⟩ := List.mem_flatMap.mp hc
        exact reprByte_printable hq x c hx
      · simp at hc; subst hc; exact hqp

theorem mapM_ok_map {α β : Type} {f : α → Except PyErr β} {g : β → α} (h : ∀ b, f (g b) = .ok b) (l : List β) :
    (l.map g).mapM f = .ok l := by
  induction l with
  | nil => rfl
  | cons b l ih => rw [List.map_cons, List.mapM_cons, h, ih]; rfl

theorem readFileList_names (names : List Bytes) : readFileList (concat (names.map fun n => bytesRepr n ++ ['\n'])) = .ok names := by
  unfold readFileList
  have e : names.map (fun n => bytesRepr n ++ ['\n']) = (names.map bytesRepr).map (· ++ ['\n']) := by rw [List.map_map]; rfl
  rw [e, readLines_bodies]
  · rw [List.map_map]
    exact mapM_ok_map (g := (· ++ ['\n']) ∘ bytesRepr) literalEval_repr names
  · intro b hb hc
    obtain ⟨n, _, rfl⟩ := List.mem_map.mp hb
    exact absurd (bytesRepr_printable n _ hc) (by decide)
  · intro b hb hc
    obtain ⟨n, _, rfl⟩ := List.mem_map.mp hb
    exact absurd (bytesRepr_printable n _ hc) (by decide)

end Verif
