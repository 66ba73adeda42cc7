import Verif.Spec.AnyText
import Verif.Model.Text
/-!
# What the parts of a text contribute to the output
-/
namespace Verif.Spec
open Verif

/-- A newline or a tab in the output. -/
def FullTok.white (x : FullTok) : Bool :=
  decide ((x.subs = ["\n".toList] ∧ x.nonproc = ["\n".toList]) ∨ (x.subs = ["\t".toList] ∧ x.nonproc = ["\t".toList]))

/-- A newline at the very end is left out, and the end of the text is marked on request. -/
def finishToks (eof : Bool) (us : List FullTok) : List FullTok :=
  (if us.getLast?.map (·.ty) = some .newLine then us.dropLast else us) ++
    (if eof then [⟨.specialToken, ["<EOF>".toList], ["<EOF>".toList]⟩] else [])

/-- For every text, the output of a call consists of what `part` says for each piece that the lexer delivers. -/
def PartByPart (env : Env) (load : Str → Except PyErr BpeData) (call : ApiCall) (part : TokType × Str → List FullTok) : Prop :=
  ∀ lexed eof, textApi env load call lexed eof = .ok (outputOf call (finishToks eof (lexed.flatMap part)))

/-- The same call with other options. -/
def withOpts : ApiCall → CommonOpts → ApiCall
  | .nosplit _ fs, o => .nosplit o fs
  | .chars _, o => .chars o
  | .basic _ sn ro st nc, o => .basic o sn ro st nc
  | .bpe i _, o => .bpe i o

/-- What the lexer takes for a comment. -/
def IsCommentPiece (e : TokType × Str) : Prop := kindOf e.1 = .lineComment ∨ kindOf e.1 = .blockComment

/-- What the lexer takes for a string literal. -/
def IsStringPiece (e : TokType × Str) : Prop := kindOf e.1 = .string

/-- There is more in it than white space. -/
def Visible (u : Ucd) (e : TokType × Str) : Prop := ∃ c ∈ e.2, u.space c = false

open Classical in
/-- Comments replaced by `<comment>`. -/
noncomputable def commentsHidden (u : Ucd) (part : TokType × Str → List FullTok) (e : TokType × Str) : List FullTok :=
  if IsCommentPiece e ∧ Visible u e then
    [⟨if kindOf e.1 = .lineComment then .oneLineComment else .multilineComment, ["<comment>".toList], []⟩]
  else part e

open Classical in
/-- String literals replaced by `<str-literal>`. -/
noncomputable def stringsHidden (u : Ucd) (part : TokType × Str → List FullTok) (e : TokType × Str) : List FullTok :=
  if IsStringPiece e ∧ Visible u e then [⟨.stringLiteral, ["<str-literal>".toList], []⟩] else part e

open Classical in
/-- String literals with more than `n` characters, the quotes included, replaced by a pair of quotes. -/
noncomputable def longHidden (u : Ucd) (whole : Bool) (n : Nat) (part : TokType × Str → List FullTok) (e : TokType × Str) : List FullTok :=
  if IsStringPiece e ∧ Visible u e ∧ n < e.2.length then
    [if whole then ⟨.stringLiteral, ["\"\"".toList], []⟩ else ⟨.stringLiteral, ["\"".toList, "\"".toList], ["\"".toList]⟩]
  else part e

/-- Whether a call keeps string literals whole. -/
def keepsStrings : ApiCall → Bool
  | .nosplit _ fs => fs
  | _ => false

end Verif.Spec
