import Verif.Spec.Escapes
/-!
# Whole vocabulary files and files with split words
-/
namespace Verif.Spec.Ent
open Verif

/-- The text consists of the lines `bs`, with line ends of one kind; the last line may have no line end. -/
def HasLines (text : Str) (bs : List Str) : Prop :=
  (∀ b ∈ bs, '\n' ∉ b ∧ '\r' ∉ b) ∧ ∃ e, (e = ['\n'] ∨ e = ['\r', '\n'] ∨ e = ['\r']) ∧
    (text = bs.flatMap (· ++ e) ∨ ∃ a b, bs = a ++ [b] ∧ b ≠ [] ∧ text = a.flatMap (· ++ e) ++ b)

/-- Every line is the entry next to it. -/
inductive Each {α : Type} (R : Str → Str → α → Prop) : List Str → List (Str × α) → Prop
  | nil : Each R [] []
  | cons {b w v bs es} : R b w v → Each R bs es → Each R (b :: bs) ((w, v) :: es)

/-- `v` is what the last entry for `w` says. -/
def Last {α : Type} (es : List (Str × α)) (w : Str) (v : α) : Prop :=
  ∃ a b, es = a ++ (w, v) :: b ∧ ∀ x ∈ b, x.1 ≠ w

/-- The first line that is not an entry, and how reading it fails: it has one column only, or something in it is malformed. -/
def FirstBad {α : Type} (R : Str → Str → α → Prop) (bs : List Str) (e : PyErr) : Prop :=
  ∃ a b c, bs = a ++ b :: c ∧ (∀ x ∈ a, ∃ w v, R x w v) ∧ (¬ ∃ w v, R b w v) ∧
    ((e = .indexError ∧ '\t' ∉ b) ∨ (e = .valueError ∧ '\t' ∈ b))

end Verif.Spec.Ent
