import Verif.Proofs.WildInit
/-!
# C57: byte-pair encoding of a whole text (`wild_bpe`)
-/
namespace Verif.Props
open Verif Verif.Wild Verif.Spec

/-! ## An order for examples -/

/-- The smallest entry and the others. -/
def wildMin (e : Entry) : List Entry → Entry × List Entry
  | [] => (e, [])
  | x :: r =>
    let m := wildMin x r
    if e.prio < m.1.prio ∨ (e.prio = m.1.prio ∧ e.count ≤ m.1.count) then (e, x :: r) else (m.1, e :: m.2)

/-- Sets are iterated over in the order of their lists. -/
def wildOrder : Order Entry where
  iter := id
  pop := fun
    | [] => none
    | e :: r => some (wildMin e r)

/-- Sets are iterated over backwards. -/
def wildBackwards : Order Entry := { wildOrder with iter := List.reverse }

theorem wildMin_spec (e : Entry) (r : List Entry) : ((wildMin e r).1 :: (wildMin e r).2).Perm (e :: r) ∧
    ∀ x ∈ e :: r, (wildMin e r).1.prio < x.prio ∨ ((wildMin e r).1.prio = x.prio ∧ (wildMin e r).1.count ≤ x.count) := by
  induction r generalizing e with
  | nil => exact ⟨.refl _, by simp [wildMin]⟩
  | cons y r ih =>
    obtain ⟨h1, h2⟩ := ih y
    unfold wildMin
    simp only
    split
    · rename_i hc
      refine ⟨.refl _, ?_⟩
      intro x hx
      rcases List.mem_cons.mp hx with rfl | hx
      · exact .inr ⟨rfl, Int.le_refl _⟩
      · have := h2 x hx
        simp only
        omega
    · rename_i hc
      refine ⟨(List.Perm.swap _ _ _).trans (h1.cons e), ?_⟩
      intro x hx
      rcases List.mem_cons.mp hx with rfl | hx
      · simp only at *; omega
      · exact h2 x hx

theorem wildOrder_any : AnyOrder wildOrder := fun _ => .refl _
theorem wildBackwards_any : AnyOrder wildBackwards := fun l => List.reverse_perm l
theorem wildOrder_heap : IsHeap wildOrder := by
  refine ⟨rfl, ?_⟩
  intro l hl
  obtain ⟨e, r, rfl⟩ := List.exists_cons_of_ne_nil hl
  exact ⟨_, _, rfl, (wildMin_spec e r).1, (wildMin_spec e r).2⟩
theorem wildBackwards_heap : IsHeap wildBackwards := wildOrder_heap

/-! ## The merges -/

theorem single_of_noSpace {text : Str} (h : ' ' ∉ text) : Single (text.map fun c => [c]) := by
  intro x hx
  obtain ⟨c, hc, rfl⟩ := List.mem_map.mp hx
  exact ⟨c, fun e => h (e ▸ hc), rfl⟩

theorem single_charTokens (t : Str) : Single (charTokens t) := by
  intro x hx
  obtain ⟨c, hc, rfl⟩ := List.mem_map.mp hx
  by_cases h : c = ' '
  · exact ⟨Char.ofNat 0xA0, by decide, by simp [h]⟩
  · exact ⟨c, h, by simp [h]⟩

/-- C57.  For a text without spaces, in whatever order sets are iterated over and equal entries leave the heap, the merges are the
ones of byte-pair encoding: each merges the pair that occurs most often in the text at that time (the first one of several), and is
delivered with the number of replaced occurrences. -/
theorem C57_text_partial {o : Order Entry} (ho : AnyOrder o) (hh : IsHeap o) {text : Str} (hne : text ≠ []) (hs : ' ' ∉ text) (n : Nat) :
    ∃ l, runFromText o text n = .ok l ∧ Merges n (text.map fun c => [c]) l :=
  run_spec ho hh (single_of_noSpace hs) (by simpa using hne) n

example : runFromText wildOrder "abcdbc".toList 100 =
    .ok [("b c".toList, 2), ("a bc".toList, 1), ("abc d".toList, 1), ("abcd bc".toList, 1)] := by decide +kernel
example : runFromText wildBackwards "abcdbc".toList 2 = .ok [("b c".toList, 2), ("a bc".toList, 1)] := by decide +kernel
example : runFromText wildOrder "aaaaaab".toList 100 =
    .ok [("a a".toList, 3), ("aa aa".toList, 1), ("aaaa aa".toList, 1), ("aaaaaa b".toList, 1)] := by decide +kernel
example : runFromText wildOrder "a".toList 100 = .ok [] := by decide +kernel
example : ∃ l, runFromText wildBackwards "aabaab".toList 7 = .ok l ∧ Merges 7 ("aabaab".toList.map fun c => [c]) l :=
  C57_text_partial wildBackwards_any wildBackwards_heap (by decide) (by decide) 7

theorem utf8Chars_eq (bs : List (Option Str)) : (none ∉ bs → utf8Chars bs = (charTokens (bs.map fun b => b.getD []).flatten, false)) ∧
    (none ∈ bs → (utf8Chars bs).2 = true) := by
  induction bs with
  | nil => exact ⟨fun _ => rfl, fun h => nomatch h⟩
  | cons b bs ih =>
    cases b with
    | none => exact ⟨fun h => absurd List.mem_cons_self h, fun _ => rfl⟩
    | some t =>
      refine ⟨fun h => ?_, fun h => ?_⟩
      · have h' : none ∉ bs := fun g => h (List.mem_cons_of_mem _ g)
        unfold utf8Chars
        rw [ih.1 h']
        simp only [List.map_cons, Option.getD_some, List.flatten_cons, charTokens, List.map_append, Prod.mk.injEq, and_true]
        rfl
      · have h' : none ∈ bs := by simpa using h
        exact ih.2 h'

theorem fileChars_eq {f : File} (h : EarlyFailure f) : fileChars f = charTokens (textOf f) := by
  unfold fileChars textOf
  by_cases hn : none ∈ f.blocks
  · have h2 := (utf8Chars_eq f.blocks).2 hn
    have h1 : (utf8Chars f.blocks).1 = [] := by
      have := h hn
      cases hb : f.blocks with
      | nil => rfl
      | cons b bs =>
        rw [hb] at this
        simp only [List.head?_cons, Option.some.injEq] at this
        subst this; rfl
    simp only [h1, h2, if_true, hn, List.nil_append]; rfl
  · simp only [(utf8Chars_eq f.blocks).1 hn, hn, if_false, Bool.false_eq_true]

/-- C57.  The same for a file, with spaces replaced by no-break spaces, if it is UTF-8 or found not to be so in its first block. -/
theorem C57_file_partial {o : Order Entry} (ho : AnyOrder o) (hh : IsHeap o) {f : File} (hf : EarlyFailure f) (hne : textOf f ≠ []) (n : Nat) :
    ∃ l, runFromFile o f n = .ok l ∧ Merges n (charTokens (textOf f)) l := by
  unfold runFromFile
  rw [fileChars_eq hf]
  exact run_spec ho hh (single_charTokens _) (by simpa [charTokens] using hne) n

example : EarlyFailure ⟨[some "a b".toList, some " a b".toList], "?".toList⟩ ∧
    textOf ⟨[some "a b".toList, some " a b".toList], "?".toList⟩ = "a b a b".toList := by
  unfold EarlyFailure; decide
example : EarlyFailure ⟨[none, some "x".toList], "ÿx".toList⟩ ∧ textOf ⟨[none, some "x".toList], "ÿx".toList⟩ = "ÿx".toList := by
  unfold EarlyFailure; decide
example : runFromFile wildOrder ⟨[some "a b".toList, some " a b".toList], []⟩ 2 =
    .ok [(['a', ' ', Char.ofNat 0xA0], 2), (['a', Char.ofNat 0xA0, ' ', 'b'], 2)] := by decide +kernel

theorem suffix_iff (name : Str) : ['.', 'p', 'y'] <:+ name ↔ name.reverse.take 3 = ['y', 'p', '.'] := by
  rw [← List.reverse_prefix, List.prefix_iff_eq_take]
  exact eq_comm

theorem dirChars_eq {fs : List (Str × File)} (h : ∀ e ∈ fs, ".py".toList <:+ e.1 → EarlyFailure e.2) :
    dirChars fs = charTokens (dirText fs) := by
  induction fs with
  | nil => rfl
  | cons e fs ih =>
    obtain ⟨name, f⟩ := e
    have ih := ih fun e he => h e (List.mem_cons_of_mem _ he)
    unfold dirChars dirText
    by_cases hp : ".py".toList <:+ name
    · have hp' : name.reverse.take 3 = ['y', 'p', '.'] := (suffix_iff name).mp hp
      rw [if_pos hp, if_pos hp', ih, fileChars_eq (h _ List.mem_cons_self hp)]
      unfold charTokens
      rw [List.map_append, List.map_append]
      rfl
    · have hp' : ¬ name.reverse.take 3 = ['y', 'p', '.'] := fun g => hp ((suffix_iff name).mpr g)
      rw [if_neg hp, if_neg hp', ih]

/-- C57.  The same for a directory: its Python files one after the other, with three newlines after each. -/
theorem C57_dir_partial {o : Order Entry} (ho : AnyOrder o) (hh : IsHeap o) {fs : List (Str × File)}
    (hf : ∀ e ∈ fs, ".py".toList <:+ e.1 → EarlyFailure e.2) (hne : dirText fs ≠ []) (n : Nat) :
    ∃ l, runFromDir o fs n = .ok l ∧ Merges n (charTokens (dirText fs)) l := by
  unfold runFromDir
  rw [dirChars_eq hf]
  exact run_spec ho hh (single_charTokens _) (by simpa [charTokens] using hne) n

example : dirText [("a.py".toList, ⟨[some "x y".toList], []⟩), ("a.pyc".toList, ⟨[none], "z".toList⟩), (".py".toList, ⟨[], []⟩)] =
    "x y\n\n\n\n\n\n".toList := by decide +kernel
example : runFromDir wildOrder [("a.py".toList, ⟨[some "x y".toList], []⟩), ("a.pyc".toList, ⟨[none], "z".toList⟩), (".py".toList, ⟨[], []⟩)] 1 =
    .ok [("\n \n".toList, 3)] := by decide +kernel

/-! ## The description leaves no choice -/

theorem best_before {s : List Str} {p q : Str × Str} {pre post pre' post' : List Str} (h1 : s = pre ++ p.1 :: p.2 :: post)
    (h2 : s = pre' ++ q.1 :: q.2 :: post') (hn : ¬ Adjacent p (pre' ++ [q.1])) : pre'.length ≤ pre.length := by
  refine Nat.le_of_not_lt fun hlt => hn ?_
  have e : (pre' ++ [q.1]) ++ (q.2 :: post') = (pre ++ [p.1, p.2]) ++ post := by
    rw [← List.append_cons, ← h2, h1]; simp
  have hp : pre ++ [p.1, p.2] <+: pre' ++ [q.1] := by
    have a1 : pre ++ [p.1, p.2] <+: (pre ++ [p.1, p.2]) ++ post := List.prefix_append _ _
    have a2 : pre' ++ [q.1] <+: (pre ++ [p.1, p.2]) ++ post := by rw [← e]; exact List.prefix_append _ _
    exact List.prefix_of_prefix_length_le a1 a2 (by simp; omega)
  obtain ⟨r, hr⟩ := hp
  exact ⟨pre, r, by rw [← hr]; simp⟩

/-- C57.  At every time there is one pair that is to be merged. -/
theorem C57_best_unique {s : List Str} {p q : Str × Str} (hp : IsBest s p) (hq : IsBest s q) : p = q := by
  obtain ⟨ap, hp⟩ := hp
  obtain ⟨aq, hq⟩ := hq
  rcases hp q aq with h1 | ⟨-, rfl | ⟨pre, post, e1, n1⟩⟩
  · rcases hq p ap with h2 | ⟨h2, -⟩ <;> omega
  · rfl
  · rcases hq p ap with h2 | ⟨-, rfl | ⟨pre', post', e2, n2⟩⟩
    · rcases hp q aq with h1 | ⟨h1, -⟩ <;> omega
    · rfl
    · have l1 := best_before e1 e2 n2
      have l2 := best_before e2 e1 n1
      have hl : pre.length = pre'.length := by omega
      rw [e1] at e2
      obtain ⟨-, e3⟩ := List.append_inj e2 hl
      simp only [List.cons.injEq] at e3
      exact Prod.ext e3.1 e3.2.1

theorem adjacent_zip {q : Str × Str} {s : List Str} (h : Adjacent q s) : q ∈ s.zip s.tail := by
  obtain ⟨p, r, rfl⟩ := h
  induction p with
  | nil => simp
  | cons x p ih =>
    cases p with
    | nil => simp
    | cons y p => exact List.mem_cons_of_mem _ ih

example : IsBest ["a".toList, "b".toList, "a".toList, "c".toList] ("a".toList, "b".toList) := by
  refine ⟨⟨[], _, rfl⟩, ?_⟩
  intro q hq
  replace hq := adjacent_zip hq
  refine .inr ⟨?_, .inr ⟨[], _, rfl, fun h => ?_⟩⟩
  · revert q; decide +kernel
  · cases adjacent_zip h

/-- C57.  There is only one list of merges. -/
theorem C57_unique {n : Nat} {s : List Str} {l l' : List (Str × Int)} (h : Merges n s l) (h' : Merges n s l') : l = l' := by
  have long : ∀ {s : List Str} {p : Str × Str}, IsBest s p → 1 < s.length := by
    rintro s p ⟨⟨x, y, e⟩, -⟩
    rw [e]; simp; omega
  induction h generalizing l' with
  | zero s => cases h' <;> rfl
  | done n s hl =>
    cases h' with
    | zero => rfl
    | done => rfl
    | step hb _ => have := long hb; omega
  | step hb hm ih =>
    cases h' with
    | done _ _ hl => have := long hb; omega
    | step hb' hm' =>
      have := C57_best_unique hb hb'
      cases this
      rw [ih hm']

example : Merges 1 ("abac".toList.map fun c => [c]) [("a b".toList, 1)] := by
  obtain ⟨l, h1, h2⟩ := C57_text_partial wildOrder_any wildOrder_heap (text := "abac".toList) (by decide) (by decide) 1
  have e : runFromText wildOrder "abac".toList 1 = .ok [("a b".toList, 1)] := by decide +kernel
  rw [e] at h1
  cases h1
  exact h2

/-- C57.  The order of iteration does not matter. -/
theorem C57_deterministic {o o' : Order Entry} (ho : AnyOrder o) (hh : IsHeap o) (ho' : AnyOrder o') (hh' : IsHeap o') {text : Str}
    (hne : text ≠ []) (hs : ' ' ∉ text) (n : Nat) : runFromText o text n = runFromText o' text n := by
  obtain ⟨l, h1, h2⟩ := C57_text_partial ho hh hne hs n
  obtain ⟨l', h1', h2'⟩ := C57_text_partial ho' hh' hne hs n
  rw [h1, h1', C57_unique h2 h2']

example : runFromText wildOrder "there|is|a|thin|tooth|in|the|tooth".toList 7 = .ok [("t h".toList, 5), ("th e".toList, 2),
    ("| i".toList, 2), ("n |".toList, 2), ("t o".toList, 2), ("to o".toList, 2), ("too th".toList, 2)] := by decide +kernel

theorem shrinks {a b : Str} : ∀ {s : List Str}, Adjacent (a, b) s → (replaceAll (a, b) s).length < s.length := by
  intro s h
  have hm : ∀ (s : List Str) (o : Int), Adjacent (a, b) s → mpos a b o s ≠ [] := by
    intro s
    induction s with
    | nil => rintro o ⟨p, r, e⟩; simp at e
    | cons x s ih =>
      rintro o ⟨p, r, e⟩
      cases s with
      | nil => have := congrArg List.length e; simp at this; omega
      | cons y s =>
        unfold mpos
        split
        · simp
        · rename_i hn
          refine ih _ ?_
          cases p with
          | nil => simp only [List.nil_append, List.cons.injEq] at e; exact absurd ⟨e.1, e.2.1⟩ hn
          | cons z p =>
            simp only [List.cons_append, List.cons.injEq] at e
            exact ⟨p, r, e.2⟩
  have h1 := length_replaceAll (a := a) (b := b) s 0
  have h2 := List.length_pos_iff.mpr (hm s 0 h)
  omega

/-- C57.  With enough merges the text becomes a single token: altogether as many occurrences are replaced as there are characters
but one, and every merge replaces something. -/
theorem C57_total {n : Nat} {s : List Str} {l : List (Str × Int)} (h : Merges n s l) (hn : s.length ≤ n + 1) (hne : s ≠ []) :
    (l.map (·.2)).sum = (s.length : Int) - 1 ∧ ∀ e ∈ l, 0 < e.2 := by
  induction h with
  | zero s =>
    have := List.length_pos_iff.mpr hne
    exact ⟨by simp; omega, fun e he => nomatch he⟩
  | done n s hl =>
    have := List.length_pos_iff.mpr hne
    exact ⟨by simp; omega, fun e he => nomatch he⟩
  | @step n s a b l hb hm ih =>
    have hlt := shrinks hb.1
    have hpos : replaceAll (a, b) s ≠ [] := by
      match s, hne with
      | [x], _ => simp [replaceAll]
      | x :: y :: r, _ => unfold replaceAll; split <;> simp
    obtain ⟨h1, h2⟩ := ih (by omega) hpos
    refine ⟨by simp only [List.map_cons, List.sum_cons, h1]; omega, ?_⟩
    intro e he
    rcases List.mem_cons.mp he with rfl | he
    · simp only; omega
    · exact h2 e he

example : ((([("b c".toList, 2), ("a bc".toList, 1), ("abc d".toList, 1), ("abcd bc".toList, 1)] : List (Str × Int)).map (·.2)).sum) = 5 := by
  decide

/-! ## Texts with spaces, empty texts, files that are not UTF-8 -/

/-- C57 does not hold for texts with spaces: a pair is stored as a string with a space between its tokens, so tokens with spaces are
split in the wrong place. -/
theorem C57_space_violated : ¬ ∀ text : Str, text ≠ [] → ∃ l, runFromText wildOrder text 100 = .ok l ∧ Merges 100 (text.map fun c => [c]) l := by
  intro h
  obtain ⟨l, h1, -⟩ := h "a b a b c".toList (by decide)
  have e : runFromText wildOrder "a b a b c".toList 100 = .error .assertionError := by decide +kernel
  rw [e] at h1
  cases h1

/-- An empty text is an error. -/
theorem C57_empty (o : Order Entry) (n : Nat) : runFromText o [] n = .error .runtimeError := rfl

/-- So is an empty file, and a directory without Python files. -/
theorem C57_empty_file (o : Order Entry) (n : Nat) {f : File} (hf : EarlyFailure f) (h : textOf f = []) :
    runFromFile o f n = .error .runtimeError := by
  unfold runFromFile
  rw [fileChars_eq hf, h]
  rfl

theorem C57_empty_dir (o : Order Entry) (n : Nat) {fs : List (Str × File)} (h : ∀ e ∈ fs, ¬ ".py".toList <:+ e.1) :
    runFromDir o fs n = .error .runtimeError := by
  have : dirChars fs = [] := by
    induction fs with
    | nil => rfl
    | cons e fs ih =>
      unfold dirChars
      rw [if_neg (h e List.mem_cons_self)]
      exact ih fun e he => h e (List.mem_cons_of_mem _ he)
  unfold runFromDir
  rw [this]
  rfl

/-- C57 does not hold for files that are not UTF-8 but whose first block is: the blocks that have already been used are used again. -/
theorem C57_late_violated : ¬ ∀ f : File, textOf f ≠ [] → ∃ l, runFromFile wildOrder f 1 = .ok l ∧ Merges 1 (charTokens (textOf f)) l := by
  intro h
  obtain ⟨l, h1, h2⟩ := h ⟨[some "ab".toList, none], "abÿ".toList⟩ (by decide)
  have e : runFromFile wildOrder ⟨[some "ab".toList, none], "abÿ".toList⟩ 1 = .ok [("a b".toList, 2)] := by decide +kernel
  rw [e] at h1
  cases h1
  obtain ⟨l, g1, g2⟩ := C57_file_partial wildOrder_any wildOrder_heap (f := ⟨[none], "abÿ".toList⟩) (fun _ => rfl) (by decide) 1
  have e' : runFromFile wildOrder ⟨[none], "abÿ".toList⟩ 1 = .ok [("a b".toList, 1)] := by decide +kernel
  rw [e'] at g1
  cases g1
  have := C57_unique h2 g2
  revert this
  decide +kernel

end Verif.Props
