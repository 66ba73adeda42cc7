import Verif.Spec.Total
import Verif.Proofs.Files
/-!
# Lemmas about totals of tables of counts
-/
namespace Verif
open Spec

theorem countsTotal_nil {α : Type} : countsTotal ([] : List (α × Nat)) = 0 := rfl

theorem countsTotal_cons {α : Type} (e : α × Nat) (d : List (α × Nat)) : countsTotal (e :: d) = e.2 + countsTotal d := by simp [countsTotal]

/-- Setting an entry changes the total by the difference. -/
theorem countsTotal_set (d : Dict Str Nat) (k : Str) (n : Nat) : countsTotal (d.set k n) + (d.get? k).getD 0 = countsTotal d + n := by
  induction d with
  | nil => simp [Dict.set, Dict.get?, countsTotal]
  | cons e d ih =>
    obtain ⟨a, m⟩ := e
    by_cases h : a = k
    · subst h
      simp only [Dict.set, Dict.get?, if_true, countsTotal_cons, Option.getD_some]
      omega
    · simp only [Dict.set, Dict.get?, if_neg h, countsTotal_cons]
      omega

theorem countsTotal_counterUpdate (d : Dict Str Nat) (ws : List Str) : countsTotal (counterUpdate d ws) = countsTotal d + ws.length := by
  induction ws generalizing d with
  | nil => rfl
  | cons w ws ih =>
    have := countsTotal_set d w ((d.get? w).getD 0 + 1)
    rw [counterUpdate, ih, List.length_cons]
    omega

theorem length_pySplit (sep : Char) (s : Str) : (pySplit sep s).length = s.count sep + 1 := by
  induction s with
  | nil => rfl
  | cons c s ih =>
    by_cases h : c = sep
    · subst h
      simp [pySplit, ih]
    · obtain ⟨p, ps, hp⟩ : ∃ p ps, pySplit sep s = p :: ps := by
        cases hs : pySplit sep s with
        | nil => exact absurd hs (pySplit_ne_nil sep s)
        | cons p ps => exact ⟨p, ps, rfl⟩
      rw [pySplit_cons_ne h s p ps hp, List.count_cons_of_ne h, ← ih, hp]
      rfl

theorem count_rstripNl (s : Str) : (rstripNl s).count ' ' = s.count ' ' := by
  unfold rstripNl
  rw [List.count_reverse]
  conv => rhs; rw [← List.count_reverse]
  generalize s.reverse = t
  induction t with
  | nil => rfl
  | cons c t ih =>
    by_cases h : c = '\n'
    · subst h
      rw [List.dropWhile_cons_of_pos (by simp), ih, List.count_cons_of_ne (by decide)]
    · rw [List.dropWhile_cons_of_neg (by simpa using h)]

theorem countsTotal_text (d : Dict Str Nat) (lines : List Str) :
    countsTotal ((lines.map rstripNl).foldl (fun d line => counterUpdate d (pySplit ' ' line)) d) =
      countsTotal d + (lines.map fun line => (pySplit ' ' line).length).sum := by
  induction lines generalizing d with
  | nil => rfl
  | cons l ls ih =>
    rw [List.map_cons, List.foldl_cons, ih, countsTotal_counterUpdate, length_pySplit, count_rstripNl, List.map_cons, List.sum_cons,
      length_pySplit]
    omega

theorem countsTotal_getVocab_aux (d : Dict Str Nat) (texts : List Str) :
    countsTotal (texts.foldl (fun d t => (readFileContents t).foldl (fun d line => counterUpdate d (pySplit ' ' line)) d) d) =
      countsTotal d + calcCorpusSize texts := by
  induction texts generalizing d with
  | nil => rfl
  | cons t ts ih =>
    rw [List.foldl_cons, ih, readFileContents, countsTotal_text]
    simp only [calcCorpusSize, calcNTokens, List.map_cons, List.sum_cons]
    omega

theorem countIn_cons (e : Str × Nat) (d : List (Str × Nat)) (w : Str) :
    countIn (e :: d) w = (if e.1 = w then e.2 else 0) + countIn d w := by
  unfold countIn
  by_cases h : e.1 = w
  · rw [List.filter_cons_of_pos (by simpa using h), if_pos h]; simp
  · rw [List.filter_cons_of_neg (by simpa using h), if_neg h]; simp

theorem sum_map_add' {α : Type} (f g : α → Nat) (l : List α) :
    (l.map fun x => f x + g x).sum = (l.map f).sum + (l.map g).sum := by
  induction l with
  | nil => rfl
  | cons a l ih => simp only [List.map_cons, List.sum_cons, ih]; omega

theorem sum_zeros {α : Type} (l : List α) : (l.map fun _ => 0).sum = 0 := by
  induction l with
  | nil => rfl
  | cons a l ih => rw [List.map_cons, List.sum_cons, ih]

theorem sum_single {l : List Str} (hl : l.Nodup) {a : Str} (ha : a ∈ l) (n : Nat) :
    (l.map fun w => if a = w then n else 0).sum = n := by
  induction l with
  | nil => cases ha
  | cons b l ih =>
    rw [List.nodup_cons] at hl
    rw [List.map_cons, List.sum_cons]
    by_cases h : a = b
    · subst h
      rw [if_pos rfl]
      have : (l.map fun w => if a = w then n else 0) = l.map fun _ => 0 :=
        List.map_congr_left fun w hw => if_neg fun e : a = w => hl.1 (e ▸ hw)
      rw [this, sum_zeros]
      rfl
    · rw [if_neg h, ih hl.2 ((List.mem_cons.1 ha).resolve_left h)]
      omega

/-- The counts of the words of a list without repetition, in a table that has no other words. -/
theorem sum_countIn {l : List Str} (hl : l.Nodup) (d : List (Str × Nat)) (hd : ∀ e ∈ d, e.1 ∈ l) :
    (l.map fun w => countIn d w).sum = countsTotal d := by
  induction d with
  | nil =>
    have : (l.map fun w => countIn [] w) = l.map fun _ => 0 := List.map_congr_left fun w _ => rfl
    rw [this, countsTotal_nil, sum_zeros]
  | cons e d ih =>
    have : (l.map fun w => countIn (e :: d) w) = l.map fun w => (if e.1 = w then e.2 else 0) + countIn d w :=
      List.map_congr_left fun w _ => countIn_cons e d w
    rw [this, sum_map_add', sum_single hl (hd e (by simp)), ih fun x hx => hd x (by simp [hx]), countsTotal_cons]

theorem sum_swap {α β : Type} (f : α → β → Nat) (l : List α) (m : List β) :
    (l.map fun a => (m.map fun b => f a b).sum).sum = (m.map fun b => (l.map fun a => f a b).sum).sum := by
  induction l with
  | nil => exact (sum_zeros m).symm
  | cons a l ih =>
    rw [List.map_cons, List.sum_cons, ih, ← sum_map_add']
    rfl

/-- The total of a sum of tables. -/
theorem Spec.IsSum.total {tables : List (List (Str × Nat))} {d : List (Str × Nat)} (h : IsSum tables d) :
    countsTotal d = (tables.map countsTotal).sum := by
  rw [← sum_countIn h.once d fun e he => List.mem_map_of_mem he]
  have : ((d.map (·.1)).map fun w => countIn d w) = (d.map (·.1)).map fun w => (tables.map fun t => countIn t w).sum :=
    List.map_congr_left fun w _ => h.counts w
  rw [this, sum_swap]
  congr 1
  refine List.map_congr_left fun t ht => sum_countIn h.once t fun e he => ?_
  exact (h.words e.1).2 ⟨t, ht, List.mem_map_of_mem he⟩

end Verif
