import Verif.Props.Docopt
import Verif.Props.Print
/-!
# From the words of a command line to what is printed (C70, C73)
-/
namespace Verif.Props

open Verif Verif.Docopt Verif.Spec Verif.Spec.Line Verif.Spec.Lit Line

theorem printed_of_shows {p : Char → Bool} {r : Except PyErr (List Str)} {o : SplitOutcome} (h : Shows .printed r o) : Printed r (o.stdout p) := by
  cases h with
  | result ts =>
    refine ⟨_, rfl, fun hn => ?_, fun ts' => ⟨fun hh => (C70_one_reading (C70_reads p ts) hh).symm, ?_⟩⟩
    · have := C70_one_line p ts _ hn
      rcases this with h | h
      · exact absurd h.1 (by decide)
      · exact absurd h.1 (by decide)
    · rintro rfl
      exact C70_reads p _
  | invalid => rfl
  | error => rfl

/-- **C70** Every call of the API for a text can be made on the command line, with the exceptions of C73, and the tokens that it returns are the only
reading of the line that is printed. -/
theorem C70_shell_partial {call : ApiCall} (hc : Writable call) {text : Str} (hne : text ≠ []) (ht : Word text) (ext : Option Str) (vocab : Bool) :
    ∃ a, parse (line call [text] none none ext vocab) = some (.split a) ∧
      ∀ (p : Char → Bool) (env : Env) (d : BpeDisk) (h : Host) (lex : Str → Option Str → List (TokType × Str)) (w : BpeCache → BpeCache),
        Printed ((textApiSt env d ⟨call, lex text ext, false, true, w⟩ none).1.map (·.1)) ((handleSplitting env d h lex a).stdout p) := by
  obtain ⟨a, h1, h2⟩ := C73_text_partial hc hne ht ext vocab
  exact ⟨a, h1, fun p env d h lex w => printed_of_shows (h2 env d h lex w)⟩

/-- **C70** What is printed by any command line that is accepted, with a text that is not empty: the result of one call of the API, unless the length
of strings is not a number; then nothing is printed. -/
theorem C70_any_line {argv : List Str} {a : SplitArgs} (h : parse argv = some (.split a)) {text : Str} (ht : a.text = some text) (hne : text ≠ []) :
    ((∃ s, a.opts.maxStrLength = some s ∧ pyInt s = .error .valueError) ∧ ∀ p env d h lex, (handleSplitting env d h lex a).stdout p = []) ∨
    ∃ call : ApiCall, ∀ (p : Char → Bool) (env : Env) (d : BpeDisk) (h : Host) (lex : Str → Option Str → List (TokType × Str)) (w : BpeCache → BpeCache),
      Printed ((textApiSt env d ⟨call, lex text a.ext, false, true, w⟩ none).1.map (·.1)) ((handleSplitting env d h lex a).stdout p) := by
  rcases (C73_only_calls h).2 with ⟨s, h1, h2, h3⟩ | ⟨call, -, h2⟩
  · exact .inl ⟨⟨s, h1, h2⟩, fun p env d h lex => by rw [h3]; rfl⟩
  · refine .inr ⟨call, fun p env d h lex w => ?_⟩
    rw [h2]
    have := C61_text_partial env d h lex call text hne a.ext a.path a.outputPath a.calcVocab w
    rw [← ht] at this
    exact printed_of_shows this

/-- **C70** A command line with a path prints nothing. -/
theorem C70_any_path {argv : List Str} {a : SplitArgs} (h : parse argv = some (.split a)) (ht : a.text = none)
    (p : Char → Bool) (env : Env) (d : BpeDisk) (host : Host) (lex : Str → Option Str → List (TokType × Str)) :
    (handleSplitting env d host lex a).stdout p = [] := by
  obtain ⟨h0, h1⟩ := C73_only_calls h
  have hp : ∃ q, a.path = some q := by
    rcases h0 with ⟨⟨t, e⟩, -⟩ | ⟨-, h⟩
    · rw [ht] at e; cases e
    · exact h
  obtain ⟨q, hq⟩ := hp
  rcases h1 with ⟨s, -, -, h3⟩ | ⟨call, -, h2⟩
  · rw [h3]; rfl
  · rw [h2]
    have := C70_corpus p env d host lex call q a.ext a.outputPath a.calcVocab
    rw [← ht, ← hq] at this
    exact this

/-- `codeprep nosplit "a b" --no-com` prints what the function of the API returns. -/
example : ∃ a, parse ["nosplit".toList, "a b".toList, "--no-com".toList] = some (.split a) ∧ a.text = some "a b".toList ∧
    Writable (.nosplit ⟨false, true, false, false, 999⟩ false) ∧ Word "a b".toList := by
  refine ⟨_, rfl, rfl, ?_, ?_⟩
  · exact fun h => nomatch h.1
  · decide

end Verif.Props
