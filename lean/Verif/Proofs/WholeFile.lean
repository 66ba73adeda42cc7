import Verif.Spec.WholeFile
import Verif.Proofs.Files
import Verif.Props.Escapes
/-!
# Lemmas about whole vocabulary files and files with split words
-/
namespace Verif.Ent
open Verif Verif.Spec.Ent Verif.Spec.Esc Dict

/-! ## Lines -/

theorem univNl_body {b : Str} (h : '\r' ∉ b) (t : Str) : univNl (b ++ t) = b ++ univNl t := by
  induction b with
  | nil => rfl
  | cons c b ih =>
    simp only [List.mem_cons, not_or] at h
    rw [List.cons_append, List.cons_append, ← ih h.2]
    rw [univNl.eq_4]
    · intro r e
      exact absurd e.symm h.1
    · intro e
      exact absurd e.symm h.1

theorem univNl_bodies {e : Str} (he : e = ['\n'] ∨ e = ['\r', '\n'] ∨ e = ['\r']) (t : Str) (ht : '\r' ∉ t) (htn : '\n' ∉ t) :
    ∀ (bs : List Str), (∀ b ∈ bs, '\n' ∉ b ∧ '\r' ∉ b) →
      univNl (bs.flatMap (· ++ e) ++ t) = bs.flatMap (· ++ ['\n']) ++ t
  | [], _ => by simpa using univNl_id ht
  | b :: bs, h => by
    have ih := univNl_bodies he t ht htn bs (fun x hx => h x (by simp [hx]))
    obtain ⟨h1, h2⟩ := h b (by simp)
    simp only [List.flatMap_cons, List.append_assoc]
    rw [univNl_body h2, ← ih]
    congr 1
    rcases he with rfl | rfl | rfl
    · rw [List.singleton_append, univNl.eq_4 _ _ (by simp) (by simp)]
      rfl
    · rfl
    · rw [List.singleton_append]
      have : ∀ r, bs.flatMap (· ++ ['\r']) ++ t ≠ '\n' :: r := by
        intro r e
        cases bs with
        | nil => simp only [List.flatMap_nil, List.nil_append] at e; subst e; simp at htn
        | cons b' bs =>
          obtain ⟨h1', h2'⟩ := h b' (by simp)
          cases b' with
          | nil => simp at e
          | cons c b' => simp at e; simp [e.1] at h1'
      rw [univNl.eq_3 _ this]
      rfl

theorem fileLines_last {b : Str} (h : '\n' ∉ b) (hb : b ≠ []) : fileLines b = [b] := by
  induction b with
  | nil => exact absurd rfl hb
  | cons c b ih =>
    simp only [List.mem_cons, not_or] at h
    rw [fileLines, if_neg (fun e => h.1 e.symm)]
    cases b with
    | nil => rfl
    | cons c' b => rw [ih h.2 (by simp)]

theorem fileLines_bodies (t : Str) : ∀ (bs : List Str), (∀ b ∈ bs, '\n' ∉ b) →
    fileLines (bs.flatMap (· ++ ['\n']) ++ t) = bs.map (· ++ ['\n']) ++ fileLines t
  | [], _ => rfl
  | b :: bs, h => by
    simp only [List.flatMap_cons, List.append_assoc, List.map_cons, List.cons_append]
    rw [fileLines_line (h b (by simp)), List.nil_append, fileLines_bodies t bs (fun x hx => h x (by simp [hx]))]

theorem rstripNl_none {b : Str} (h : '\n' ∉ b) : rstripNl b = b := by
  unfold rstripNl
  rw [dropWhile_head, List.reverse_reverse]
  intro c hc
  have := List.mem_of_mem_head? hc
  simp only [List.mem_reverse] at this
  simp only [decide_eq_false_iff_not]
  rintro rfl
  exact h this

/-- What is read of the lines depends on the lines without their ends only. -/
theorem readLines_has {text : Str} {bs : List Str} (h : HasLines text bs) : (readLines text).map rstripNl = bs := by
  obtain ⟨hb, e, he, rfl | ⟨a, b, rfl, hne, rfl⟩⟩ := h
  · unfold readLines
    have := univNl_bodies he [] (by simp) (by simp) bs hb
    rw [List.append_nil, List.append_nil] at this
    rw [this]
    have := fileLines_bodies [] bs (fun b h => (hb b h).1)
    rw [List.append_nil] at this
    rw [this]
    simp only [fileLines, List.append_nil, List.map_map]
    rw [List.map_congr_left (g := id), List.map_id]
    intro b h
    exact rstripNl_line (hb b h).1
  · obtain ⟨h1, h2⟩ := hb b (by simp)
    unfold readLines
    rw [univNl_bodies he b h2 h1 a (fun x hx => hb x (by simp [hx])), fileLines_bodies b a (fun x hx => (hb x (by simp [hx])).1),
      fileLines_last h1 hne, List.map_append, List.map_map, List.map_singleton, rstripNl_none h1]
    rw [List.map_congr_left (g := id), List.map_id]
    intro x h
    exact rstripNl_line (hb x (by simp [h])).1

/-! ## The loop -/

/-- Both loops. -/
def loop {α : Type} (f : Str → Except PyErr (Str × α)) (d : Dict Str α) : List Str → Except PyErr (Dict Str α)
  | [] => .ok d
  | line :: rest => do
    let e ← f line
    loop f (d.set e.1 e.2) rest

theorem readCacheLoop_eq : ∀ (ls : List Str) (d : Dict Str (List Str)), readCacheLoop d ls = loop readCacheLine d ls
  | [], _ => rfl
  | l :: ls, d => by
    rw [readCacheLoop, loop]
    cases readCacheLine l with
    | error => rfl
    | ok e => exact readCacheLoop_eq ls _

theorem loadVocabLoop_eq : ∀ (ls : List Str) (d : Dict Str Int), loadVocabLoop d ls = loop loadVocabLine d ls
  | [], _ => rfl
  | l :: ls, d => by
    rw [loadVocabLoop, loop]
    cases loadVocabLine l with
    | error => rfl
    | ok e => exact loadVocabLoop_eq ls _

theorem loop_map {α : Type} (f : Str → Except PyErr (Str × α)) (hf : ∀ l, f (rstripNl l) = f l) :
    ∀ (ls : List Str) (d : Dict Str α), loop f d (ls.map rstripNl) = loop f d ls
  | [], _ => rfl
  | l :: ls, d => by
    rw [List.map_cons, loop, loop, hf]
    cases f l with
    | error => rfl
    | ok e => exact loop_map f hf ls _

theorem loop_append {α : Type} (f : Str → Except PyErr (Str × α)) (ls' : List Str) :
    ∀ (ls : List Str) (d : Dict Str α), loop f d (ls ++ ls') = loop f d ls >>= fun d => loop f d ls'
  | [], _ => rfl
  | l :: ls, d => by
    rw [List.cons_append, loop, loop]
    cases f l with
    | error => rfl
    | ok e => exact loop_append f ls' ls _

theorem rstripNl_idem (l : Str) : rstripNl (rstripNl l) = rstripNl l := by
  unfold rstripNl
  rw [List.reverse_reverse]
  congr 1
  refine dropWhile_head ?_
  intro c hc
  cases h : l.reverse.dropWhile (· = '\n') with
  | nil => rw [h] at hc; cases hc
  | cons x r =>
    rw [h] at hc
    cases hc
    have := List.head?_dropWhile_not (fun x => decide (x = '\n')) l.reverse
    rw [h] at this
    simpa using this

theorem readCacheLine_strip (l : Str) : readCacheLine (rstripNl l) = readCacheLine l := by
  unfold readCacheLine; rw [rstripNl_idem]

theorem loadVocabLine_strip (l : Str) : loadVocabLine (rstripNl l) = loadVocabLine l := by
  unfold loadVocabLine; rw [rstripNl_idem]

/-! ## What the loop does -/

section
variable {α : Type} {f : Str → Except PyErr (Str × α)} {R : Str → Str → α → Prop}

theorem loop_each {bs : List Str} {es : List (Str × α)} (hf : ∀ b ∈ bs, ∀ w v, f b = .ok (w, v) ↔ R b w v) (h : Each R bs es) :
    ∀ d, loop f d bs = .ok (es.foldl (fun d e => d.set e.1 e.2) d) := by
  induction h with
  | nil => intro d; rfl
  | @cons b w v bs es hr _ ih =>
    intro d
    rw [loop, (hf b (by simp) w v).mpr hr]
    exact ih (fun x hx => hf x (by simp [hx])) _

theorem foldl_get (w : Str) : ∀ (es : List (Str × α)) (d : Dict Str α) (v : α),
    (es.foldl (fun d e => d.set e.1 e.2) d).get? w = some v ↔ Last es w v ∨ (d.get? w = some v ∧ ∀ x ∈ es, x.1 ≠ w)
  | [], d, v => by
    constructor
    · intro h; exact .inr ⟨h, by simp⟩
    · rintro (⟨a, b, h, _⟩ | h)
      · simp at h
      · exact h.1
  | x :: es, d, v => by
    rw [List.foldl_cons, foldl_get w es, get?_set]
    constructor
    · rintro (⟨a, b, rfl, h⟩ | ⟨h1, h2⟩)
      · exact .inl ⟨x :: a, b, rfl, h⟩
      · split at h1
        · rename_i e
          cases h1
          exact .inl ⟨[], es, by rw [← e]; rfl, h2⟩
        · rename_i e
          refine .inr ⟨h1, ?_⟩
          intro y hy
          rcases List.mem_cons.mp hy with rfl | hy
          · exact e
          · exact h2 y hy
    · rintro (⟨a, b, h, hb⟩ | ⟨h1, h2⟩)
      · cases a with
        | nil =>
          simp only [List.nil_append, List.cons.injEq] at h
          obtain ⟨rfl, rfl⟩ := h
          exact .inr ⟨by simp, hb⟩
        | cons y a =>
          simp only [List.cons_append, List.cons.injEq] at h
          obtain ⟨rfl, rfl⟩ := h
          exact .inl ⟨a, b, rfl, hb⟩
      · refine .inr ⟨?_, fun y hy => h2 y (by simp [hy])⟩
        rw [if_neg (h2 x (by simp))]; exact h1

theorem foldl_WF : ∀ (es : List (Str × α)) (d : Dict Str α), d.WF → (es.foldl (fun d e => d.set e.1 e.2) d).WF
  | [], _, h => h
  | _ :: es, _, h => foldl_WF es _ (WF_set h _ _)

theorem keys_set_eq (k : Str) (v : α) : ∀ (d : Dict Str α), (d.set k v).keys = if k ∈ d.keys then d.keys else d.keys ++ [k]
  | [] => by simp [Dict.set, Dict.keys]
  | x :: d => by
    have ih := keys_set_eq k v d
    have e : Dict.keys (x :: d) = x.1 :: Dict.keys d := rfl
    by_cases h : x.1 = k
    · have : Dict.set (x :: d) k v = (x.1, v) :: d := by rw [Dict.set, if_pos h]
      rw [this, if_pos (by rw [e, h]; simp), e]; rfl
    · have : Dict.set (x :: d) k v = x :: Dict.set d k v := by rw [Dict.set, if_neg h]
      rw [this, e]
      change x.1 :: Dict.keys (Dict.set d k v) = _
      rw [ih]
      by_cases hk : k ∈ Dict.keys d
      · rw [if_pos hk, if_pos (List.mem_cons_of_mem _ hk)]
      · rw [if_neg hk, if_neg (by rw [List.mem_cons, not_or]; exact ⟨Ne.symm h, hk⟩)]; rfl

/-- The words are in the order of their first occurrence. -/
theorem foldl_keys : ∀ (es : List (Str × α)) (d : Dict Str α), (es.foldl (fun d e => d.set e.1 e.2) d).keys =
    d.keys ++ ((es.map (·.1)).filter (· ∉ d.keys)).eraseDups
  | [], d => by simp
  | x :: es, d => by
    rw [List.foldl_cons, foldl_keys es, keys_set_eq]
    by_cases h : x.1 ∈ d.keys
    · simp [h]
    · rw [if_neg h, List.map_cons, List.filter_cons_of_pos (by simpa using h), List.eraseDups_cons, List.append_assoc,
        List.singleton_append, List.filter_filter]
      congr 4
      funext y
      by_cases hy : y = x.1 <;> simp [hy, h]

theorem loop_total {bs : List Str} (hf : ∀ b ∈ bs, ∀ w v, f b = .ok (w, v) ↔ R b w v) (h : ∀ b ∈ bs, ∃ w v, R b w v) :
    ∃ es, Each R bs es := by
  induction bs with
  | nil => exact ⟨[], .nil⟩
  | cons b bs ih =>
    obtain ⟨w, v, hr⟩ := h b (by simp)
    obtain ⟨es, he⟩ := ih (fun x hx => hf x (by simp [hx])) (fun x hx => h x (by simp [hx]))
    exact ⟨_, .cons hr he⟩

theorem loop_error (e : PyErr) :
    ∀ (bs : List Str), (∀ b ∈ bs, ∀ w v, f b = .ok (w, v) ↔ R b w v) →
      (∀ b ∈ bs, (∃ w v, f b = .ok (w, v)) ∨ (f b = .error .indexError ∧ '\t' ∉ b) ∨ (f b = .error .valueError ∧ '\t' ∈ b)) →
      ∀ (d : Dict Str α), loop f d bs = .error e ↔ FirstBad R bs e
  | [], _, _, d => by
    constructor
    · intro h; cases h
    · rintro ⟨a, b, c, h, _⟩; simp at h
  | b :: bs, hf, hx, d => by
    have hf0 := hf b (by simp)
    have hx0 := hx b (by simp)
    rw [loop]
    cases hb : f b with
    | error e' =>
      have hn : ¬ ∃ w v, R b w v := by
        rintro ⟨w, v, h⟩
        rw [(hf0 w v).mpr h] at hb; cases hb
      have hk : (e' = .indexError ∧ '\t' ∉ b) ∨ (e' = .valueError ∧ '\t' ∈ b) := by
        rcases hx0 with ⟨w, v, h⟩ | ⟨h, h'⟩ | ⟨h, h'⟩
        · rw [hb] at h; cases h
        · rw [hb] at h; cases h; exact .inl ⟨rfl, h'⟩
        · rw [hb] at h; cases h; exact .inr ⟨rfl, h'⟩
      constructor
      · intro h
        cases h
        exact ⟨[], b, bs, rfl, by simp, hn, hk⟩
      · rintro ⟨a, b', c, h, ha, hn', hk'⟩
        cases a with
        | nil =>
          simp only [List.nil_append, List.cons.injEq] at h
          obtain ⟨rfl, rfl⟩ := h
          rcases hk with ⟨rfl, h1⟩ | ⟨rfl, h1⟩ <;> rcases hk' with ⟨rfl, h2⟩ | ⟨rfl, h2⟩
          · rfl
          · exact absurd h2 h1
          · exact absurd h1 h2
          · rfl
        | cons x a =>
          simp only [List.cons_append, List.cons.injEq] at h
          obtain ⟨rfl, rfl⟩ := h
          exact absurd (ha b (by simp)) hn
    | ok p =>
      obtain ⟨w, v⟩ := p
      have hr := (hf0 w v).mp hb
      change loop f (d.set w v) bs = _ ↔ _
      rw [loop_error e bs (fun x h => hf x (by simp [h])) (fun x h => hx x (by simp [h]))]
      constructor
      · rintro ⟨a, b', c, rfl, ha, hk⟩
        refine ⟨b :: a, b', c, rfl, ?_, hk⟩
        intro x hx
        rcases List.mem_cons.mp hx with rfl | hx
        · exact ⟨w, v, hr⟩
        · exact ha x hx
      · rintro ⟨a, b', c, h, ha, hn, hk⟩
        cases a with
        | nil =>
          simp only [List.nil_append, List.cons.injEq] at h
          obtain ⟨rfl, rfl⟩ := h
          exact absurd ⟨w, v, hr⟩ hn
        | cons x a =>
          simp only [List.cons_append, List.cons.injEq] at h
          obtain ⟨rfl, rfl⟩ := h
          exact ⟨a, b', c, rfl, fun y hy => ha y (by simp [hy]), hn, hk⟩

end

/-! ## One file after another -/

theorem univNl_append (t : Str) : ∀ (s : Str), s.getLast? ≠ some '\r' → univNl (s ++ t) = univNl s ++ univNl t := by
  intro s
  fun_induction univNl s with
  | case1 => intro _; rfl
  | case2 r ih =>
    intro h
    have hr : r.getLast? ≠ some '\r' := by
      cases r with
      | nil => simp
      | cons x r => simpa using h
    rw [List.cons_append, List.cons_append, univNl, ih hr]; rfl
  | case3 r hn ih =>
    intro h
    cases r with
    | nil => simp at h
    | cons x r =>
      have hr : (x :: r).getLast? ≠ some '\r' := by simpa using h
      rw [List.cons_append, List.cons_append, univNl.eq_3]
      · rw [← List.cons_append, ih hr]; rfl
      · intro r' e
        exact hn r (by rw [(List.cons.inj e).1])
  | case4 c r h1 h2 ih =>
    intro h
    have hr : r.getLast? ≠ some '\r' := by
      cases r with
      | nil => simp
      | cons x r => simpa using h
    rw [List.cons_append, univNl.eq_4, ih hr]
    · rfl
    · intro r' e; exact absurd e (by simpa using h2)
    · simpa using h2

theorem fileLines_append (t : Str) : ∀ (s : Str), s.getLast? = some '\n' → fileLines (s ++ t) = fileLines s ++ fileLines t
  | [], h => by simp at h
  | [c], h => by
    simp only [List.getLast?_singleton, Option.some.injEq] at h
    subst h
    simp [fileLines]
  | c :: c' :: s, h => by
    have ih := fileLines_append t (c' :: s) (by simpa using h)
    rw [List.cons_append, fileLines, ih]
    rw [fileLines.eq_2 c]
    by_cases hc : c = '\n'
    · rw [if_pos hc, if_pos hc]; rfl
    · rw [if_neg hc, if_neg hc]
      cases hl : fileLines (c' :: s) with
      | nil =>
        exfalso
        rw [fileLines] at hl
        split at hl
        · cases hl
        · split at hl <;> cases hl
      | cons l ls => rfl

theorem getLast_cons {c : Char} {r r' : Str} (hr : r = [] → r' = []) (ih : r.getLast? = some '\n' → r'.getLast? = some '\n')
    (h : (c :: r).getLast? = some '\n') (hc : r = [] → c = '\n') : ('\n' :: r').getLast? = some '\n' ∧ (c :: r').getLast? = some '\n' := by
  cases r with
  | nil => rw [hr rfl, hc rfl]; exact ⟨rfl, rfl⟩
  | cons x r =>
    rw [List.getLast?_cons_cons] at h
    rw [List.getLast?_cons, List.getLast?_cons, ih h]
    exact ⟨rfl, rfl⟩

theorem univNl_last : ∀ (s : Str), s.getLast? = some '\n' → (univNl s).getLast? = some '\n' := by
  intro s
  fun_induction univNl s with
  | case1 => intro h; cases h
  | case2 r ih =>
    intro h
    rw [List.getLast?_cons_cons] at h
    exact (getLast_cons (by rintro rfl; rfl) ih h (fun _ => rfl)).1
  | case3 r hn ih =>
    intro h
    cases r with
    | nil => cases h
    | cons x r => exact (getLast_cons (by intro h; cases h) ih h (by intro h; cases h)).1
  | case4 c r h1 h2 ih =>
    intro h
    refine (getLast_cons (by rintro rfl; rfl) ih h ?_).2
    rintro rfl
    simpa using h

/-- The lines of two files, one after the other. -/
theorem readLines_append (s t : Str) (h : s.getLast? = some '\n') : readLines (s ++ t) = readLines s ++ readLines t := by
  unfold readLines
  rw [univNl_append t s (by rw [h]; decide), fileLines_append _ _ (univNl_last s h)]

/-- Reading on with entries that are already there. -/
theorem loop_from {α : Type} (f : Str → Except PyErr (Str × α)) : ∀ (ls : List Str) (d d' : Dict Str α), loop f [] ls = .ok d' →
    ∃ d'', loop f d ls = .ok d'' ∧ ∀ w, d''.get? w = (d'.get? w).or (d.get? w) := by
  have key : ∀ (ls : List Str) (d₀ d d' : Dict Str α), loop f d₀ ls = .ok d' →
      ∀ d₁ : Dict Str α, (∀ w, d₁.get? w = (d₀.get? w).or (d.get? w)) →
        ∃ d'', loop f d₁ ls = .ok d'' ∧ ∀ w, d''.get? w = (d'.get? w).or (d.get? w) := by
    intro ls
    induction ls with
    | nil => intro d₀ d d' h d₁ h₁; cases h; exact ⟨d₁, rfl, h₁⟩
    | cons l ls ih =>
      intro d₀ d d' h d₁ h₁
      rw [loop] at h ⊢
      cases hl : f l with
      | error e => rw [hl] at h; cases h
      | ok e =>
        rw [hl] at h
        refine ih _ d d' h _ ?_
        intro w
        rw [get?_set, get?_set, h₁]
        split <;> rfl
  intro ls d d' h
  exact key ls [] d d' h d (by intro w; rfl)

end Verif.Ent
