import Verif.Proofs.FileSelect
/-!
# Properties of the lists of files
-/
namespace Verif.Props
open Verif Spec

/-! ## C34: lists of files are read back -/

/-- C34.  Whatever the names are, the saved list of files is read back as the files that were yielded, the saved list of
directories is read back as the directories, and it does not matter which of the two the scan was asked for. -/
theorem C34_read_back (b : Bool) (exts : Option (List Str)) (sc : Scanned) :
    readFileList (walkAndSave b exts sc).fileList = .ok (walkAndSave false exts sc).yielded ∧
    readFileList (walkAndSave b exts sc).dirList = .ok (walkAndSave true exts sc).yielded := by
  rw [walkAndSave_eq, walkAndSave_eq, walkAndSave_eq]
  exact ⟨readFileList_names _, readFileList_names _⟩

/-- A name with both quotes, a backslash, a new line and a byte that is not ASCII. -/
example : readFileList (walkAndSave true none (.dir [⟨[46], [[97]], [([39, 34, 92, 10, 255], false)]⟩])).fileList =
    .ok [[46, 47, 39, 34, 92, 10, 255]] := (C34_read_back _ _ _).1

example : bytesRepr [39, 34, 92, 10, 255, 97] = "b'\\'\"\\\\\\n\\xffa'".toList := by decide
example : bytesRepr [39, 97] = "b\"'a\"".toList := by decide
example : bytesRepr [34, 9, 13, 0, 127, 126, 32] = "b'\"\\t\\r\\x00\\x7f~ '".toList := by decide

/-- C34.  Any names at all that are written one per line, as the scanner does, are read back. -/
theorem C34_names (names : List Bytes) : readFileList (concat (names.map fun n => bytesRepr n ++ ['\n'])) = .ok names :=
  readFileList_names names

/-- **C34** How a name is quoted in the list: with `"` exactly if it contains `'` and no `"`, otherwise with `'`; the quotes that do not end the name
are written as they are. -/
theorem C34_quotes (b : Bytes) : ((bytesRepr b)[1]? = some '"' ↔ 39 ∈ b ∧ 34 ∉ b) ∧ ((bytesRepr b)[1]? = some '\'' ↔ 39 ∉ b ∨ 34 ∈ b) ∧
    (bytesRepr b).getLast? = (bytesRepr b)[1]? ∧ (34 ∉ b → '"' ∈ (bytesRepr b).tail.tail.dropLast → False) ∧
    (34 ∈ b → (bytesRepr b)[1]? = some '\'' ∧ reprByte '\'' 34 = ['"']) := by
  have h1 : (bytesRepr b)[1]? = some (reprQuote b) := rfl
  have hq : reprQuote b = '"' ↔ 39 ∈ b ∧ 34 ∉ b := by
    unfold reprQuote
    by_cases h : 39 ∈ b ∧ 34 ∉ b
    · rw [if_pos h]; exact ⟨fun _ => h, fun _ => rfl⟩
    · rw [if_neg h]; exact ⟨fun e => absurd e (by decide), fun h' => absurd h' h⟩
  have hq' : reprQuote b = '\'' ↔ 39 ∉ b ∨ 34 ∈ b := by
    unfold reprQuote
    by_cases h : 39 ∈ b ∧ 34 ∉ b
    · rw [if_pos h]; exact ⟨fun e => absurd e (by decide), fun h' => absurd h (fun h => h'.elim (fun a => a h.1) (fun a => h.2 a))⟩
    · rw [if_neg h]
      refine ⟨fun _ => ?_, fun _ => rfl⟩
      by_cases h3 : 39 ∈ b
      · exact .inr (Classical.byContradiction fun h4 => h ⟨h3, h4⟩)
      · exact .inl h3
  refine ⟨by rw [h1, Option.some_inj]; exact hq, by rw [h1, Option.some_inj]; exact hq', ?_, ?_, fun h => ⟨by rw [h1, hq'.mpr (.inr h)], by decide⟩⟩
  · rw [h1]
    unfold bytesRepr
    rw [← List.cons_append, ← List.cons_append, List.getLast?_concat]
  · intro h hm
    unfold bytesRepr at hm
    rw [List.tail_cons, List.tail_cons, List.dropLast_concat] at hm
    obtain ⟨x, hx, hm⟩ := List.mem_flatMap.mp hm
    have hx' : x ≠ 34 := fun e => h (by rw [← e]; exact hx)
    have table : ∀ q ∈ ['"', '\''], ∀ x : Fin 256, x.val ≠ 34 → '"' ∉ reprByte q (UInt8.ofNat x.val) := by decide +kernel
    refine table (reprQuote b) (by rcases reprQuote_cases b with e | e <;> rw [e] <;> decide) ⟨x.toNat, x.toNat_lt⟩ (fun e => hx' (UInt8.toNat_inj.mp e)) ?_
    rw [show UInt8.ofNat (Fin.val ⟨x.toNat, x.toNat_lt⟩) = x from UInt8.ofNat_toNat]
    exact hm

example : bytesRepr [39, 34] = "b'\\'\"'".toList := by decide

/-- C34.  The text of a list has only printable ASCII characters and new lines, so no encoding can spoil it. -/
theorem C34_ascii (b : Bool) (exts : Option (List Str)) (sc : Scanned) :
    ∀ c ∈ (walkAndSave b exts sc).fileList ++ (walkAndSave b exts sc).dirList, c = '\n' ∨ (32 ≤ c.toNat ∧ c.toNat < 127) := by
  have key : ∀ names : List Bytes, ∀ c ∈ concat (names.map fun n => bytesRepr n ++ ['\n']), c = '\n' ∨ (32 ≤ c.toNat ∧ c.toNat < 127) := by
    intro names c hc
    rw [concat_eq_flatten] at hc
    obtain ⟨l, hl, hc⟩ := List.mem_flatten.mp hc
    obtain ⟨n, _, rfl⟩ := List.mem_map.mp hl
    rcases List.mem_append.mp hc with h | h
    · exact .inr (bytesRepr_printable n c h)
    · simp at h; exact .inl h
  intro c hc
  rw [walkAndSave_eq] at hc
  rcases List.mem_append.mp hc with h | h
  · exact key _ c h
  · exact key _ c h

/-- C34, C44.  The files yielded for a directory are exactly the wanted ones among those found, in the order in which they are
found; the directories are all those found. -/
theorem C34_yielded (exts : Option (List Str)) (es : List WalkEntry) :
    (∀ p, p ∈ (walkAndSave false exts (.dir es)).yielded ↔ ∃ l, (p, l) ∈ foundFiles es ∧ Wanted exts p l) ∧
    (walkAndSave false exts (.dir es)).yielded.Sublist ((foundFiles es).map (·.1)) ∧
    (walkAndSave true exts (.dir es)).yielded = foundDirs es := by
  rw [walkAndSave_eq, walkAndSave_eq]
  refine ⟨fun p => ?_, ?_, rfl⟩
  · show p ∈ listedFiles exts (.dir es) ↔ _
    rw [listedFiles_eq, List.mem_map]
    constructor
    · rintro ⟨⟨q, l⟩, h, rfl⟩
      obtain ⟨h1, h2⟩ := List.mem_filter.mp h
      exact ⟨l, h1, (selected_iff _ _ _).mp h2⟩
    · rintro ⟨l, h1, h2⟩
      exact ⟨(p, l), List.mem_filter.mpr ⟨h1, (selected_iff _ _ _).mpr h2⟩, rfl⟩
  · show (listedFiles exts (.dir es)).Sublist _
    rw [listedFiles_eq]
    exact List.filter_sublist.map _

/-- Files of every wanted kind are yielded once for every time they are found: nothing is lost and nothing is repeated. -/
theorem C34_distinct (exts : Option (List Str)) (es : List WalkEntry) (hroots : (es.map (·.root)).Nodup)
    (hr : ∀ e ∈ es, PlainRoot e.root) (hn : ∀ e ∈ es, ∀ f ∈ e.files, PlainName f.1) (hf : ∀ e ∈ es, (e.files.map (·.1)).Nodup) :
    (walkAndSave false exts (.dir es)).yielded.Nodup := by
  refine List.Nodup.sublist (C34_yielded exts es).2.1 ?_
  unfold foundFiles
  rw [List.map_flatMap]
  simp only [List.map_map, Function.comp_def]
  induction es with
  | nil => exact .nil
  | cons e es ih =>
    rw [List.flatMap_cons]
    rw [List.map_cons, List.nodup_cons] at hroots
    refine List.nodup_append.mpr ⟨?_, ih hroots.2 (fun e' h => hr e' (List.mem_cons_of_mem _ h)) (fun e' h => hn e' (List.mem_cons_of_mem _ h))
      (fun e' h => hf e' (List.mem_cons_of_mem _ h)), ?_⟩
    · have h1 := hf e List.mem_cons_self
      have h2 := hn e List.mem_cons_self
      have h3 := hr e List.mem_cons_self
      generalize e.files = fs at h1 h2
      induction fs with
      | nil => exact .nil
      | cons f fs ihf =>
        rw [List.map_cons, List.nodup_cons] at h1
        rw [List.map_cons, List.nodup_cons]
        refine ⟨fun hm => ?_, ihf h1.2 fun g hg => h2 g (List.mem_cons_of_mem _ hg)⟩
        obtain ⟨g, hg, e2⟩ := List.mem_map.mp hm
        have := join_inj h3 (h2 g (List.mem_cons_of_mem _ hg)) h3 (h2 f List.mem_cons_self) e2
        exact h1.1 (this.2 ▸ List.mem_map_of_mem hg)
    · intro a ha b hb hab
      subst hab
      obtain ⟨f, hf', rfl⟩ := List.mem_map.mp ha
      obtain ⟨e', he', hb⟩ := List.mem_flatMap.mp hb
      obtain ⟨g, hg, e2⟩ := List.mem_map.mp hb
      have := join_inj (hr e' (List.mem_cons_of_mem _ he')) (hn e' (List.mem_cons_of_mem _ he') g hg)
        (hr e List.mem_cons_self) (hn e List.mem_cons_self f hf') e2
      exact hroots.1 (this.1 ▸ List.mem_map_of_mem he')

/-- `./a` and `./b/a` with a link `./b/c`. -/
def demoTree : List WalkEntry := [⟨[46], [[98]], [([97], false)]⟩, ⟨[46, 47, 98], [], [([97], false), ([99], true)]⟩]

example : (walkAndSave false none (.dir demoTree)).yielded = [[46, 47, 97], [46, 47, 98, 47, 97]] := by decide

example : (walkAndSave false none (.dir demoTree)).yielded.Nodup :=
  C34_distinct none demoTree (by decide) (by unfold PlainRoot; decide) (by unfold PlainName; decide) (by decide)

/-- C34.  A path is put together as `os.path.join` does it: absolute names replace the root, otherwise there is exactly one
slash more, unless the root is empty or has one already. -/
theorem C34_join (r n : Bytes) :
    joinPath r (47 :: n) = 47 :: n ∧ (n.head? ≠ some 47 → joinPath [] n = n ∧ joinPath (r ++ [47]) n = r ++ [47] ++ n ∧
      (PlainRoot r → joinPath r n = r ++ [47] ++ n)) := by
  refine ⟨by simp [joinPath], fun h => ⟨by simp [joinPath], ?_, fun hr => ?_⟩⟩
  · simp [joinPath, h]
  · unfold joinPath
    rw [if_neg h, if_neg (by rintro (h | h); exact hr.1 h; exact hr.2 h)]
    simp

example : joinPath [97] [98] = [97, 47, 98] := by decide

/-- A single file is listed whatever the extensions are. -/
theorem C34_single_file (b : Bool) (exts : Option (List Str)) (base : Bytes) :
    (walkAndSave false exts (.file base)).yielded = [base] ∧ (walkAndSave true exts (.file base)).yielded = [] ∧
    readFileList (walkAndSave b exts (.file base)).fileList = .ok [base] := by
  refine ⟨rfl, rfl, ?_⟩
  rw [(C34_read_back b exts (.file base)).1]
  rfl

/-- C34.  A line that is cut off within the name is rejected, it is never read as another name. -/
theorem C34_truncated (b : Bytes) (p : Str) (h : p <+: bytesRepr b) (hne : p ≠ bytesRepr b) : literalEvalBytes p = .error .syntaxError := by
  obtain ⟨t, ht⟩ := h
  have ht0 : t ≠ [] := by rintro rfl; exact hne (by simpa using ht)
  have hq := reprQuote_cases b
  unfold bytesRepr at ht
  match p, ht with
  | [], _ => rfl
  | [x], ht =>
    simp only [List.cons_append, List.cons.injEq, List.nil_append] at ht
    obtain ⟨rfl, _⟩ := ht
    rfl
  | x :: y :: p, ht =>
    simp only [List.cons_append, List.cons.injEq] at ht
    obtain ⟨rfl, rfl, ht⟩ := ht
    simp only [literalEvalBytes, if_pos hq]
    have : p <+: b.flatMap (reprByte (reprQuote b)) := by
      rw [← List.dropLast_concat_getLast ht0, ← List.append_assoc] at ht
      exact ⟨_, (List.append_inj' ht rfl).1⟩
    rw [bytesBody_prefix hq b p this _ (Nat.le_refl _)]
    rfl

/-- Other literals that can be in a list. -/
example : literalEvalBytes "b'\\v\\f\\a\\b\\q\\777\\0' \n".toList = .ok [11, 12, 7, 8, 92, 113, 255, 0] := by decide
example : literalEvalBytes "b'a' x".toList = .error .syntaxError := by decide
example : literalEvalBytes "'a'".toList = .error .syntaxError := by decide
example : literalEvalBytes "b'a\\xf".toList = .error .syntaxError := C34_truncated [97, 255] _ ⟨"f'".toList, by decide⟩ (by decide)

/-! ## C34: saved lists -/

/-- The saved lists are right if the times agree, and no time is in the future. -/
def CacheOk (exts : Option (List Str)) (sc : Scanned) (s : Nat × ListCache) : Prop :=
  (∀ f, s.2.folder = some f → f.mtime ≤ s.1) ∧ (∀ m, s.2.marker = some m → m ≤ s.1) ∧
  ∀ f m, s.2.folder = some f → s.2.marker = some m → m = f.mtime →
    f.dirText = (walkAndSave false exts sc).dirList ∧ f.fileText = (walkAndSave false exts sc).fileList

theorem walk_texts (b : Bool) (exts : Option (List Str)) (sc : Scanned) :
    (walkAndSave b exts sc).dirList = (walkAndSave false exts sc).dirList ∧
    (walkAndSave b exts sc).fileList = (walkAndSave false exts sc).fileList := by
  rw [walkAndSave_eq, walkAndSave_eq]
  exact ⟨rfl, rfl⟩

theorem scan_ok (exts : Option (List Str)) (sc : Scanned) (t now : Nat) (c : ListCache) (h : CacheOk exts sc (t, c)) (hn : t < now)
    (sup b : Bool) : CacheOk exts sc (now, (scanAndSave now sup b exts sc c).2) := by
  obtain ⟨h1, h2, h3⟩ := h
  refine ⟨?_, ?_, ?_⟩
  · rintro f hf
    simp only [scanAndSave, Option.some.injEq] at hf
    subst hf
    exact Nat.le_refl _
  · intro m hm
    simp only [scanAndSave] at hm
    split at hm
    · exact Nat.le_trans (h2 m hm) (Nat.le_of_lt hn)
    · simp at hm; exact Nat.le_of_eq hm.symm
  · intro f m hf hm e
    simp only [scanAndSave, Option.some.injEq] at hf
    subst hf
    exact walk_texts b exts sc

theorem getAllFiles_cases (now : Nat) (sup b : Bool) (exts : Option (List Str)) (sc : Scanned) (c : ListCache) :
    (∃ f, c.folder = some f ∧ c.marker = some f.mtime ∧
      getAllFiles now sup b exts sc c = (readFileList (if b then f.dirText else f.fileText), c)) ∨
    ((∀ f, c.folder = some f → c.marker ≠ some f.mtime) ∧
      getAllFiles now sup b exts sc c = (.ok (scanAndSave now sup b exts sc c).1, (scanAndSave now sup b exts sc c).2)) := by
  rcases c with ⟨_ | f, _ | m⟩
  · exact .inr ⟨by simp, rfl⟩
  · exact .inr ⟨by simp, rfl⟩
  · exact .inr ⟨by simp, rfl⟩
  · by_cases h : m = f.mtime
    · subst h
      exact .inl ⟨f, rfl, rfl, by simp [getAllFiles]⟩
    · refine .inr ⟨?_, by simp [getAllFiles, h, Prod.map]⟩
      simp
      intro e
      exact h e

theorem event_ok (exts : Option (List Str)) (sc : Scanned) {s u : Nat × ListCache} (h : CacheOk exts sc s) (e : ListEvent exts sc s u) :
    CacheOk exts sc u := by
  have later : ∀ {t now : Nat} {c : ListCache}, CacheOk exts sc (t, c) → t < now → CacheOk exts sc (now, c) := by
    rintro t now c ⟨h1, h2, h3⟩ hn
    exact ⟨fun f hf => Nat.le_trans (h1 f hf) (Nat.le_of_lt hn), fun m hm => Nat.le_trans (h2 m hm) (Nat.le_of_lt hn), h3⟩
  have fresh : ∀ {t now : Nat} {c : ListCache} (x y : Str), CacheOk exts sc (t, c) → t < now →
      CacheOk exts sc (now, ⟨some ⟨now, x, y⟩, c.marker⟩) := by
    rintro t now c x y ⟨h1, h2, h3⟩ hn
    refine ⟨?_, fun m hm => Nat.le_trans (h2 m hm) (Nat.le_of_lt hn), ?_⟩
    · rintro f hf
      simp only [Option.some.injEq] at hf
      subst hf
      exact Nat.le_refl _
    · rintro f m hf hm e
      simp only [Option.some.injEq] at hf
      subst hf
      have := h2 m hm
      simp only at e this
      omega
  cases e with
  | call sup b c hn =>
    rcases getAllFiles_cases _ sup b exts sc c with ⟨f, _, _, e⟩ | ⟨_, e⟩
    · rw [e]; exact later h hn
    · rw [e]; exact scan_ok exts sc _ _ c h hn sup b
  | crash nd nf b c hn =>
    unfold getAllFilesCrash
    simp only
    split
    · split
      · exact later h hn
      · exact fresh _ _ h hn
    · exact fresh _ _ h hn
  | modified c x y hn => exact fresh x y h hn
  | removed c hn =>
    exact ⟨by simp, fun m hm => Nat.le_trans (h.2.1 m hm) (Nat.le_of_lt hn), by simp⟩
  | unmarked c hn =>
    exact ⟨fun f hf => Nat.le_trans (h.1 f hf) (Nat.le_of_lt hn), by simp, by simp⟩

/-- C34.  After any history of complete calls, crashed calls and changes of the saved lists, if no two of them happen in the same
second, a call gives exactly the files or directories of the dataset. -/
theorem C34_cache (exts : Option (List Str)) (sc : Scanned) (t₀ : Nat) {t : Nat} {c : ListCache}
    (h : ListHistory exts sc (t₀, ⟨none, none⟩) (t, c)) (now : Nat) (sup b : Bool) :
    (getAllFiles now sup b exts sc c).1 = .ok (walkAndSave b exts sc).yielded := by
  have inv : ∀ s, ListHistory exts sc (t₀, ⟨none, none⟩) s → CacheOk exts sc s := by
    intro s hs
    induction hs with
    | nil => exact ⟨by simp, by simp, by simp⟩
    | snoc _ e ih => exact event_ok exts sc ih e
  obtain ⟨_, _, h3⟩ := inv _ h
  rcases getAllFiles_cases now sup b exts sc c with ⟨f, hf, hm, e⟩ | ⟨_, e⟩
  · rw [e]
    obtain ⟨e1, e2⟩ := h3 f f.mtime hf hm rfl
    have := C34_read_back false exts sc
    cases b
    · simp only [Bool.false_eq_true, if_false]; rw [e2]; exact this.1
    · simp only [if_true]; rw [e1]; exact this.2
  · rw [e]; rfl

/-- A crash, then a complete call, then a call that reads the saved list. -/
example : ∃ c, ListHistory none (.dir demoTree) (0, ⟨none, none⟩) (2, c) ∧ c.marker = some 2 :=
  ⟨_, .snoc (.snoc .nil (.crash (now := 1) 3 5 false _ (by decide))) (.call (now := 2) false false _ (by decide)), by decide⟩

/-- C34.  Once a call has completed, lists are taken from the saved ones: later calls change nothing. -/
theorem C34_saved (exts : Option (List Str)) (sc : Scanned) (c : ListCache) (t now : Nat) (b b' sup : Bool) :
    let c' := (getAllFiles t false b exts sc c).2
    getAllFiles now sup b' exts sc c' = ((getAllFiles now sup b' exts sc c').1, c') ∧
      ∃ f, c'.folder = some f ∧ c'.marker = some f.mtime := by
  have : ∃ f, (getAllFiles t false b exts sc c).2.folder = some f ∧ (getAllFiles t false b exts sc c).2.marker = some f.mtime := by
    rcases getAllFiles_cases t false b exts sc c with ⟨f, hf, hm, e⟩ | ⟨_, e⟩
    · rw [e]; exact ⟨f, hf, hm⟩
    · rw [e]; exact ⟨_, rfl, rfl⟩
  refine ⟨?_, this⟩
  obtain ⟨f, hf, hm⟩ := this
  rcases getAllFiles_cases now sup b' exts sc (getAllFiles t false b exts sc c).2 with ⟨_, _, _, e⟩ | ⟨h, _⟩
  · rw [e]
  · exact absurd hm (h f hf)

/-- With caching suppressed, nothing is marked. -/
theorem C34_suppressed (exts : Option (List Str)) (sc : Scanned) (c : ListCache) (now : Nat) (b : Bool) :
    (getAllFiles now true b exts sc c).2.marker = c.marker := by
  rcases getAllFiles_cases now true b exts sc c with ⟨_, _, _, e⟩ | ⟨_, e⟩ <;> rw [e] <;> rfl

/-! ## C44: extensions -/

theorem barPieces (s : Str) : BarPieces s (pySplit '|' s) :=
  ⟨pySplit_ne_nil _ _, fun _ h => pySplit_noSep_mem h, pyJoin_pySplit _ _⟩

theorem barPieces_unique {s : Str} {l : List Str} (h : BarPieces s l) : l = pySplit '|' s := by
  rw [← h.2.2, pySplit_pyJoin h.1 h.2.1]

/-- C44.  Without extensions there is nothing to normalise; otherwise the result has exactly the extensions between the bars,
strictly sorted by code points, and so without duplicates. -/
theorem C44_normalize :
    normalizeExtensions none = none ∧ normalizeExtensions (some []) = none ∧
    ∀ s l, s ≠ [] → BarPieces s l → ∃ r, normalizeExtensions (some s) = some r ∧ r.Pairwise (· < ·) ∧ ∀ x, x ∈ r ↔ x ∈ l := by
  refine ⟨rfl, rfl, fun s l hs hl => ?_⟩
  cases s with
  | nil => exact absurd rfl hs
  | cons c s =>
    refine ⟨_, rfl, sorted_dedup _, fun x => ?_⟩
    rw [(sortStr_perm _).mem_iff, mem_dedup, ← barPieces_unique hl]

example : normalizeExtensions (some "java|c|java".toList) = some ["c".toList, "java".toList] := by decide
example : normalizeExtensions (some "b|B|a|ab|".toList) = some ["".toList, "B".toList, "a".toList, "ab".toList, "b".toList] := by decide

/-- Every string can be cut at its bars, in exactly one way. -/
theorem C44_pieces (s : Str) : (∃ l, BarPieces s l) ∧ ∀ l m, BarPieces s l → BarPieces s m → l = m :=
  ⟨⟨_, barPieces s⟩, fun _ _ h h' => (barPieces_unique h).trans (barPieces_unique h').symm⟩

/-- C44.  The result does not depend on the order of the extensions, nor on how often they are repeated. -/
theorem C44_order (s t : Str) (l m : List Str) (hs : s ≠ []) (ht : t ≠ []) (hl : BarPieces s l) (hm : BarPieces t m)
    (h : ∀ x, x ∈ l ↔ x ∈ m) : normalizeExtensions (some s) = normalizeExtensions (some t) := by
  obtain ⟨r, e, hr, mr⟩ := C44_normalize.2.2 s l hs hl
  obtain ⟨r', e', hr', mr'⟩ := C44_normalize.2.2 t m ht hm
  rw [e, e', sorted_ext hr hr' fun x => by rw [mr, mr', h]]

example : normalizeExtensions (some "java|c|java".toList) = normalizeExtensions (some "c|java".toList) :=
  C44_order _ _ ["java".toList, "c".toList, "java".toList] ["c".toList, "java".toList] (by decide) (by decide) (by unfold BarPieces; decide)
    (by unfold BarPieces; decide) (by intro x; simp [or_comm]; exact .inr)

/-- C44, partial.  Normalising the result again, written with bars, gives the same result, if some character of the string is
not a bar. -/
theorem C44_idempotent_partial (s : Str) (r : List Str) (h : normalizeExtensions (some s) = some r) (hs : ∃ c ∈ s, c ≠ '|') :
    normalizeExtensions (some (pyJoin ['|'] r)) = some r := by
  have hne : s ≠ [] := by rintro rfl; simp at hs
  have hp := barPieces s
  obtain ⟨r', e, hsort, hmem⟩ := C44_normalize.2.2 s _ hne hp
  rw [h] at e
  obtain rfl := Option.some.inj e
  have hbar : ∀ p ∈ r, '|' ∉ p := fun p hp' => hp.2.1 p ((hmem p).mp hp')
  have hr : r ≠ [] := by
    rintro rfl
    obtain ⟨p, hp'⟩ := List.exists_mem_of_ne_nil _ hp.1
    exact absurd ((hmem p).mpr hp') (by simp)
  have hj : pyJoin ['|'] r ≠ [] := by
    intro e
    have h1 : r = [[]] := by
      have := pySplit_pyJoin hr hbar
      rw [e] at this
      exact this.symm
    -- then all pieces of `s` are empty
    obtain ⟨c, hc, hcb⟩ := hs
    have all : ∀ p ∈ pySplit '|' s, p = [] := fun p hp' => by
      have := (hmem p).mpr hp'
      rw [h1] at this
      simpa using this
    have bars : ∀ l : List Str, (∀ p ∈ l, p = []) → ∀ c ∈ pyJoin ['|'] l, c = '|' := by
      intro l
      induction l with
      | nil => simp [pyJoin]
      | cons p l ih =>
        intro hl c hc
        have hp0 := hl p List.mem_cons_self
        subst hp0
        cases l with
        | nil => simp [pyJoin] at hc
        | cons q l =>
          simp only [pyJoin, List.nil_append, List.mem_append, List.mem_singleton] at hc
          rcases hc with hc | hc
          · exact hc
          · exact ih (fun p hp' => hl p (List.mem_cons_of_mem _ hp')) c hc
    have := bars _ all c (by rw [hp.2.2]; exact hc)
    exact hcb this
  obtain ⟨r', e', hsort', hmem'⟩ := C44_normalize.2.2 _ r hj ⟨hr, hbar, rfl⟩
  rw [e', sorted_ext hsort' hsort hmem']

example : normalizeExtensions (some (pyJoin ['|'] ["c".toList, "java".toList])) = some ["c".toList, "java".toList] :=
  C44_idempotent_partial "java|c|java".toList _ (by decide) (by decide)

/-- C44, the missing part is false.  A string of bars stands for the empty extension; written again it is the empty string,
which stands for no restriction: `a` is not selected by the former and selected by the latter. -/
theorem C44_idempotent_violated :
    normalizeExtensions (some ['|']) = some [[]] ∧ normalizeExtensions (some (pyJoin ['|'] [[]])) = none ∧
    ¬ Wanted (normalizeExtensions (some ['|'])) [97] false ∧ Wanted (normalizeExtensions (some (pyJoin ['|'] [[]]))) [97] false := by
  refine ⟨by decide, by decide, ?_, ?_⟩ <;> rw [← selected_iff] <;> decide

/-- C44.  A file in a directory is selected iff it is not a link and, if there are extensions, ends with a dot and one of them. -/
theorem C44_selected (exts : Option (List Str)) (e : WalkEntry) (name : Bytes) (l : Bool) (rest : List (Bytes × Bool))
    (hf : e.files = (name, l) :: rest) :
    (Wanted exts (joinPath e.root name) l ↔
      (walkAndSave false exts (.dir [e])).yielded = joinPath e.root name :: (walkAndSave false exts (.dir [{ e with files := rest }])).yielded) ∧
    (¬ Wanted exts (joinPath e.root name) l ↔
      (walkAndSave false exts (.dir [e])).yielded = (walkAndSave false exts (.dir [{ e with files := rest }])).yielded) := by
  rw [walkAndSave_eq, walkAndSave_eq]
  show (_ ↔ listedFiles exts (.dir [e]) = _ :: listedFiles exts (.dir [{ e with files := rest }])) ∧
    (_ ↔ listedFiles exts (.dir [e]) = listedFiles exts (.dir [{ e with files := rest }]))
  simp only [listedFiles_eq, foundFiles, List.flatMap_cons, List.flatMap_nil, List.append_nil, hf, List.map_cons, List.filter_cons]
  rw [← selected_iff]
  split
  · next h => simp [h]
  · next h =>
    refine ⟨⟨fun h' => absurd h' h, fun h' => ?_⟩, ⟨fun _ => rfl, fun _ => h⟩⟩
    exact absurd (congrArg List.length h') (by simp)

example : (walkAndSave false (some ["java".toList]) (.dir [⟨[46], [], [("a.java".toList.flatMap String.utf8EncodeChar, false),
    ("ajava".toList.flatMap String.utf8EncodeChar, false), ("b.java".toList.flatMap String.utf8EncodeChar, true)]⟩])).yielded =
    ["./a.java".toList.flatMap String.utf8EncodeChar] := by decide

/-! ## C51: changes of a dataset -/

theorem timesDirs_take (limit : Nat) (l : List Nat) : ∀ n, (timesDirs limit n l).1 = l.take (limit - n) ∧
    match (timesDirs limit n l).2 with
    | some k => k = n + l.length ∧ l.length ≤ limit - n
    | none => limit - n ≤ l.length := by
  induction l with
  | nil => intro n; simp [timesDirs]
  | cons t l ih =>
    intro n
    unfold timesDirs
    split
    · next h => simp [Nat.sub_eq_zero_of_le h]
    · next h =>
      have e : limit - n = limit - (n + 1) + 1 := by omega
      obtain ⟨h1, h2⟩ := ih (n + 1)
      simp only
      refine ⟨by rw [h1, e, List.take_succ_cons], ?_⟩
      generalize (timesDirs limit (n + 1) l).2 = o at h2
      cases o with
      | none => simp only [List.length_cons] at *; omega
      | some k => simp only [List.length_cons] at *; omega

theorem timesFiles_take (limit : Nat) (l : List (Option Nat)) : ∀ n, (timesFiles limit n l).1 = (l.filterMap id).take (limit - n) ∧
    match (timesFiles limit n l).2 with
    | some k => k = n + (l.filterMap id).length ∧ (l.filterMap id).length ≤ limit - n
    | none => limit - n ≤ (l.filterMap id).length := by
  induction l with
  | nil => intro n; simp [timesFiles]
  | cons t l ih =>
    intro n
    unfold timesFiles
    split
    · next h => simp [Nat.sub_eq_zero_of_le h]
    · next h =>
      cases t with
      | none => exact ih n
      | some t =>
        have e : limit - n = limit - (n + 1) + 1 := by omega
        obtain ⟨h1, h2⟩ := ih (n + 1)
        have ef : (some t :: l).filterMap id = t :: l.filterMap id := rfl
        simp only
        rw [ef]
        refine ⟨by rw [h1, e, List.take_succ_cons], ?_⟩
        generalize (timesFiles limit (n + 1) l).2 = o at h2
        cases o with
        | none => simp only [List.length_cons] at *; omega
        | some k => simp only [List.length_cons] at *; omega

theorem timesWalk_take (limit : Nat) (es : List TimedEntry) : ∀ n, timesWalk limit n es = (allTimes es).take (limit - n) := by
  induction es with
  | nil => intro n; simp [timesWalk, allTimes]
  | cons e es ih =>
    intro n
    have ea : allTimes (e :: es) = e.dirs ++ (e.files.filterMap id ++ allTimes es) := by
      simp [allTimes]
    rw [ea, List.take_append, List.take_append]
    unfold timesWalk
    have hd := timesDirs_take limit e.dirs n
    split
    · next ts h =>
      rw [h] at hd
      simp only at hd
      rw [hd.1, Nat.sub_eq_zero_of_le hd.2]
      simp
    · next ts n' h =>
      rw [h] at hd
      simp only at hd
      obtain ⟨h1, rfl, h3⟩ := hd
      have hf := timesFiles_take limit e.files (n + e.dirs.length)
      have e1 : limit - (n + e.dirs.length) = limit - n - e.dirs.length := by omega
      split
      · next us h' =>
        rw [h'] at hf
        simp only at hf
        rw [hf.1, h1, e1, Nat.sub_eq_zero_of_le (n := limit - n - e.dirs.length) (by omega)]
        simp
      · next us n'' h' =>
        rw [h'] at hf
        simp only at hf
        obtain ⟨g1, rfl, g3⟩ := hf
        rw [ih, h1, g1, e1, List.append_assoc]
        congr 3
        omega

/-- C51.  The time of a directory is the latest among the first `limit` times found in it. -/
theorem C51_time (limit : Nat) (es : List TimedEntry) (t : Nat) :
    dirLastModification limit es = .ok t ↔
      t ∈ (allTimes es).take limit ∧ ∀ u ∈ (allTimes es).take limit, u ≤ t := by
  unfold dirLastModification
  rw [timesWalk_take, Nat.sub_zero, ← List.max?_eq_some_iff]
  cases ((allTimes es).take limit).max? <;> simp

/-- C51, partial.  A dataset with at most `limit` directories and files gets a different time if something in it becomes newer
than everything was before. -/
theorem C51_noticed_partial (limit : Nat) (es es' : List TimedEntry) (t t' : Nat) (hl : (allTimes es').length ≤ limit)
    (h : dirLastModification limit es = .ok t) (h' : dirLastModification limit es' = .ok t')
    (hnew : ∃ u ∈ allTimes es', ∀ v ∈ allTimes es, v < u) : t ≠ t' := by
  rw [C51_time] at h h'
  obtain ⟨u, hu, hv⟩ := hnew
  have h1 := hv t (List.mem_of_mem_take h.1)
  have h2 := h'.2 u (by rw [List.take_of_length_le hl]; exact hu)
  omega

example : dirLastModification 1000 [⟨[1], [some 3, none, some 2]⟩] ≠ dirLastModification 1000 [⟨[1], [some 3, none, some 4]⟩] := by
  decide

/-- C51, the missing part is false.  What comes after the first `limit` entries has no influence: a file there can be changed at
any time. -/
theorem C51_limit_violated (limit : Nat) (hl : 0 < limit) (a : Nat) :
    dirLastModification limit [⟨[], List.replicate limit (some 5) ++ [some a]⟩] = .ok 5 := by
  rw [C51_time]
  have e : (allTimes [⟨[], List.replicate limit (some 5) ++ [some a]⟩]).take limit = List.replicate limit 5 := by
    have : allTimes [⟨[], List.replicate limit (some 5) ++ [some a]⟩] = List.replicate limit 5 ++ [a] := by
      simp [allTimes, List.filterMap_append]
    rw [this, List.take_append_of_le_length (by simp)]
    simp
  rw [e]
  refine ⟨List.mem_replicate.mpr ⟨by omega, rfl⟩, fun u hu => ?_⟩
  rw [(List.mem_replicate.mp hu).2]
  exact Nat.le_refl _

/-- C51, the missing part is false.  The time of the directory itself is not looked at, so removing a file from it, or adding an
old one, is not noticed. -/
theorem C51_removed_violated :
    dirLastModification 1000 [⟨[], [some 5, some 3]⟩] = dirLastModification 1000 [⟨[], [some 5]⟩] := by decide

/-- A directory with only links to files raises `ValueError`. -/
theorem C51_links_only (limit : Nat) (es : List TimedEntry) (h : allTimes es = []) : dirLastModification limit es = .error .valueError := by
  unfold dirLastModification
  rw [timesWalk_take, h, List.take_nil]
  rfl

example : allTimes [⟨[], [none]⟩] = [] := by decide

end Verif.Props
