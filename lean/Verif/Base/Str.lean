/-!
# Python-like strings and dictionaries

Strings are lists of Unicode scalar values (Python `str` without lone surrogates).
Python `dict`s are insertion-ordered association lists.
-/

deriving instance DecidableEq for Except

namespace Verif

/-- A Python `str`: a sequence of Unicode scalar values (lone surrogates are not represented). -/
abbrev Str := List Char

/-- `s.split(sep)` for a one-character separator: never returns an empty list. -/
def pySplit (sep : Char) : Str → List Str
  | [] => [[]]
  | c :: cs =>
    if c = sep then [] :: pySplit sep cs
    else match pySplit sep cs with
      | [] => [[c]]            -- never happens, `pySplit` is never empty
      | p :: ps => (c :: p) :: ps

/-- `sep.join(parts)`. -/
def pyJoin (sep : Str) : List Str → Str
  | [] => []
  | [p] => p
  | p :: q :: ps => p ++ sep ++ pyJoin sep (q :: ps)

/-- `''.join(parts)`. -/
def concat : List Str → Str
  | [] => []
  | p :: ps => p ++ concat ps

/-- `s.rstrip('\n')`. -/
def rstripNl (s : Str) : Str := (s.reverse.dropWhile (· = '\n')).reverse

/-- `s.endswith(suf)`. -/
def endsWith (s suf : Str) : Bool := suf.reverse.isPrefixOf s.reverse

/-- Iterating over an open text file yields its lines, each with its line end except possibly the last one.
The model works on the text after universal-newline translation. -/
def fileLines : Str → List Str
  | [] => []
  | c :: cs =>
    if c = '\n' then ['\n'] :: fileLines cs
    else match fileLines cs with
      | [] => [[c]]
      | l :: ls => (c :: l) :: ls

/-! ## Insertion-ordered dictionaries -/

/-- A Python `dict`: association list in insertion order. -/
abbrev Dict (α β : Type) := List (α × β)

namespace Dict
variable {α β : Type} [DecidableEq α]

/-- `d.get(k)`. -/
def get? (d : Dict α β) (k : α) : Option β :=
  match d with
  | [] => none
  | (k', v) :: r => if k' = k then some v else get? r k

/-- `k in d`. -/
def has (d : Dict α β) (k : α) : Bool := (get? d k).isSome

/-- `d[k] = v`: replaces the value in place if the key exists, appends it otherwise. -/
def set (d : Dict α β) (k : α) (v : β) : Dict α β :=
  match d with
  | [] => [(k, v)]
  | (k', v') :: r => if k' = k then (k', v) :: r else (k', v') :: set r k v

/-- `del d[k]` / `d.pop(k)` (no effect if the key is absent). -/
def del (d : Dict α β) (k : α) : Dict α β := d.filter (fun e => e.1 ≠ k)

/-- `d.keys()`. -/
def keys (d : Dict α β) : List α := d.map (·.1)

/-- Python dictionaries have no duplicate keys. -/
def WF (d : Dict α β) : Prop := d.keys.Nodup

instance (d : Dict α β) : Decidable d.WF := inferInstanceAs (Decidable d.keys.Nodup)

end Dict

end Verif
