import Verif.Props.Occurs
import Verif.Props.UserCodes
import Verif.Props.Wear
/-!
# C94: Only merges that occur in the words of a text matter for the text
-/
namespace Verif.Props
open Verif Spec

/-- **C94** The result of `bpe` or `chars` for a text depends only on those merges that occur in the words of the text which are split: other
merges can be added, left out or given another rank. -/
theorem C94_text (env : Env) {call : ApiCall} {id : Str} (hid : apiBpeCodesId call = some id) (hne : id ≠ []) (hb : IsBpe call)
    {load load' : Str → Except PyErr BpeData} {cache : BpeCache} {m m' : MergeList} (hl : load id = .ok ⟨cache, m⟩)
    (hl' : load' id = .ok ⟨cache, m'⟩) (lexed : List (TokType × Str)) (parsed : List Tok) (hp : convertText env.ucd lexed = .ok parsed) (eof : Bool)
    (h : ∀ w ∈ needed env.ucd (optsOf call) (finishParsed parsed eof), ∀ p, OccursIn p w → m.priority? p = m'.priority? p) :
    textApi env load call lexed eof = textApi env load' call lexed eof := by
  obtain ⟨v, hv, hvp⟩ := createStrValue_ok (optsOf call).noStr (optsOf call).maxStrLength
  have hcfg := (textConfig_eq call hv hvp).1
  rw [textApi_loaded hid hne hb hl hcfg hp, textApi_loaded hid hne hb hl' hcfg hp]
  exact C75_needed env call hb _ hcfg _ _ _ fun w hw => C94_word cache w (h w hw)

/-- **C94** More merges change nothing for a text if none of them occurs in its words. -/
theorem C94_text_more (env : Env) {call : ApiCall} {id : Str} (hid : apiBpeCodesId call = some id) (hne : id ≠ []) (hb : IsBpe call)
    (cache : BpeCache) (m more : MergeList) (lexed : List (TokType × Str)) (parsed : List Tok) (hp : convertText env.ucd lexed = .ok parsed)
    (eof : Bool) (h : ∀ w ∈ needed env.ucd (optsOf call) (finishParsed parsed eof), ∀ e ∈ more, ¬ OccursIn e.1 w) :
    textApi env (fun _ => .ok ⟨cache, m ++ more⟩) call lexed eof = textApi env (fun _ => .ok ⟨cache, m⟩) call lexed eof := by
  obtain ⟨v, hv, hvp⟩ := createStrValue_ok (optsOf call).noStr (optsOf call).maxStrLength
  have hcfg := (textConfig_eq call hv hvp).1
  rw [textApi_loaded (load := fun _ => .ok ⟨cache, m ++ more⟩) hid hne hb rfl hcfg hp,
    textApi_loaded (load := fun _ => .ok ⟨cache, m⟩) hid hne hb rfl hcfg hp]
  exact C75_needed env call hb _ hcfg _ _ _ fun w hw => C94_more m more cache w (h w hw)

/-- The tokens of the text `ab` with some merges. -/
def tokensOfAb (m : MergeList) : List Str :=
  match textApi demoEnv (fun _ => .ok ⟨[], m⟩) (namesCall ["ab"]).api (namesCall ["ab"]).lexed false with
  | .ok x => x.1
  | .error _ => []

/-- A text with the name `ab` is not affected by a merge of `c` and `d`, but by one of `a` and `b`. -/
example : (match convertText asciiUcd (namesCall ["ab"]).lexed with
      | .ok ts => decide (needed asciiUcd {} (finishParsed ts false) = ["ab".toList])
      | .error _ => false) = true ∧ ¬ OccursIn (['c'], ['d']) "ab".toList ∧ OccursIn (['a'], ['b']) "ab".toList ∧
    tokensOfAb [] = ["a".toList, "b".toList, "</t>".toList] ∧
    tokensOfAb [((['c'], ['d']), (none, 0))] = ["a".toList, "b".toList, "</t>".toList] ∧
    tokensOfAb [((['a'], ['b']), (none, 0))] = ["ab".toList, "</t>".toList] := by
  refine ⟨by decide +kernel, ?_, ⟨[], ['@'], by decide⟩, by decide +kernel, by decide +kernel, by decide +kernel⟩
  rintro ⟨u, v, h⟩
  have hd : 'd' ∈ searched "ab".toList := by rw [h]; simp
  exact absurd hd (by decide)

end Verif.Props
