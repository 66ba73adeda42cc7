import Verif.Spec.Parse
/-!
# What becomes of the letters of an identifier
-/
namespace Verif.Spec
open Verif

/-- A piece of an identifier as it is shown: capitals are made small and large again; in a piece that begins with a capital
and is not all capitals the first letter is made small and the piece is capitalised.  All other pieces are unchanged. -/
def recased (u : Ucd) (p : Str) : Str :=
  match p with
  | [] => []
  | c :: r =>
    if u.isUpper p then u.toUpper (u.toLower p)
    else if u.isLower p = false ∧ u.isUpper [c] = true then u.capitalize (u.toLower [c] ++ r)
    else p

/-- A piece of a text as it is shown: the pieces of an identifier one by one, number literals in lower case, all else unchanged. -/
inductive ShownPiece (u : Ucd) : Str → Str → Prop
  | identifier {p qs} : (∀ c ∈ p, u.reWord c = true) → ¬ IsNumber p → IdentSplit u p qs →
      ShownPiece u p (qs.map (recased u)).flatten
  | number {p} : IsNumber p → ShownPiece u p (p.map asciiToLower)
  | other {p} : (∃ c ∈ p, u.reWord c = false) → ¬ IsNumber p → ShownPiece u p p

/-- The pieces of a piece of code as they are shown: four spaces as a tab. -/
inductive ShownTexts (u : Ucd) : List Str → List Str → Prop
  | nil : ShownTexts u [] []
  | tab {ps xs} : ShownTexts u ps xs → ShownTexts u ([' ', ' ', ' ', ' '] :: ps) (['\t'] :: xs)
  | piece {p x ps xs} : ' ' ∉ p → ShownPiece u p x → ShownTexts u ps xs → ShownTexts u (p :: ps) (x :: xs)

/-- The pieces of a string literal as they are shown: spaces as non-breaking spaces. -/
inductive ShownLiterals (u : Ucd) : List Str → List Str → Prop
  | nil : ShownLiterals u [] []
  | spaces {n ps xs} : ShownLiterals u ps xs →
      ShownLiterals u (List.replicate (n + 1) ' ' :: ps) (List.replicate (n + 1) '\u00a0' :: xs)
  | piece {p x ps xs} : ' ' ∉ p → ShownPiece u p x → ShownLiterals u ps xs → ShownLiterals u (p :: ps) (x :: xs)

/-- The identifiers among the pieces of a text consist of pieces that do not change. -/
def KeepsCase (u : Ucd) (ps : List Str) : Prop := ∀ p ∈ ps, (∀ c ∈ p, u.reWord c = true) → ¬ IsNumber p →
  ∀ qs, IdentSplit u p qs → ∀ q ∈ qs, recased u q = q

end Verif.Spec
