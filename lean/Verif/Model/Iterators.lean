import Verif.Model.PrepConfig
/-!
# Model of `codeprep/subtokens.py` and of `check_metadata_validity`
-/
namespace Verif

/-- subtokens.py 22-31 `validate_word_boundaries`. -/
def validateBoundaries (n : Nat) (bounds : List Nat) : Except PyErr Unit :=
  match bounds.head?, bounds.getLast? with
  | some h, some l =>
    if n ≠ l then .error .valueError
    else if h ≠ 0 then .error .valueError
    else .ok ()
  | _, _ => .error .valueError

/-- What an iterator returns: the index of the full token (if requested) and the formatted value. -/
abbrev IterOut (β : Type) := Option Nat × β

/-- Collect what an iterator returns until `StopIteration`.  The fuel bounds the number of calls of `next`. -/
def collectIter {σ β : Type} (next : σ → Except PyErr (Option (β × σ))) : Nat → σ → Except PyErr (List β)
  | 0, _ => .error .outOfFuel
  | fuel + 1, st => do
    match ← next st with
    | none => .ok []
    | some (x, st') => do
      let r ← collectIter next fuel st'
      .ok (x :: r)

/-- subtokens.py 66-78 `SubtokenIterator.__next__`; the state is (`current_index`, `current_full_word`). -/
def subtokenNext {α β : Type} (subs : List α) (bounds : List Nat) (format : List α → β) (withIndex : Bool)
    (st : Nat × Nat) : Except PyErr (Option (IterOut β × (Nat × Nat))) :=
  if st.1 ≥ subs.length then .ok none
  else
    match subs[st.1]?, bounds[st.2 + 1]? with
    | some x, some b =>
      .ok (some ((if withIndex then some st.2 else none, format [x]), (st.1 + 1, if b = st.1 + 1 then st.2 + 1 else st.2)))
    | _, _ => .error .indexError

/-- subtokens.py 34-78: `list(SubtokenIterator(subs, bounds, format, with_index))`. -/
def subtokenIter {α β : Type} (subs : List α) (bounds : List Nat) (format : List α → β) (withIndex : Bool) :
    Except PyErr (List (IterOut β)) := do
  validateBoundaries subs.length bounds
  collectIter (subtokenNext subs bounds format withIndex) (subs.length + 1) (0, 0)

/-- subtokens.py 119-130 `FullTokenIterator.__next__`; the state is `current_full_word`. -/
def fullTokenNext {α β : Type} (subs : List α) (bounds : List Nat) (format : List α → β) (withIndex : Bool)
    (w : Nat) : Except PyErr (Option (IterOut β × Nat)) :=
  if w ≥ bounds.length - 1 then .ok none
  else
    match bounds[w]?, bounds[w + 1]? with
    | some s, some e =>
      .ok (some ((if withIndex then some w else none, format ((subs.take e).drop s)), w + 1))
    | _, _ => .error .indexError

/-- subtokens.py 81-130: `list(FullTokenIterator(subs, bounds, format, with_index))`. -/
def fullTokenIter {α β : Type} (subs : List α) (bounds : List Nat) (format : List α → β) (withIndex : Bool) :
    Except PyErr (List (IterOut β)) := do
  validateBoundaries subs.length bounds
  collectIter (fullTokenNext subs bounds format withIndex) bounds.length 0

/-- subtokens.py 133-138 `is_terminal_subtoken` with `use_token_end_chars=True`. -/
def isTerminalSubtoken (s : Str) : Bool := endsWith s Ph.compoundWordEnd

/-- metadata.py 86-94: the loop over the subtokens from index `i`. -/
def checkTerminals (bounds : List Nat) : Nat → List Str → Except PyErr Unit
  | _, [] => .ok ()
  | i, t :: r =>
    if isTerminalSubtoken t ≠ decide (i + 1 ∈ bounds) then .error .assertionError
    else checkTerminals bounds (i + 1) r

/-- metadata.py 74-94 `check_metadata_validity`. -/
def checkMetadataValidity (subs : List Str) (md : Meta) (useEndChars : Bool) : Except PyErr Unit := do
  validateBoundaries subs.length md.bounds
  if useEndChars then checkTerminals md.bounds 0 subs else .ok ()

/-! ## The command line -/

/-- The options and commands on the command line (docopt's dictionary): missing options are `none`. -/
structure CliArgs where
  /-- commands -/
  nosplit : Bool
  chars : Bool
  basic : Bool
  bpe : Bool
  /-- predefined BPE codes given as a command -/
  k1 : Bool
  k5 : Bool
  k10 : Bool
  /-- the positional argument `<bpe-codes-id>` -/
  bpeCodesId : Option Str
  /-- options -/
  noSpaces : Bool
  noUnicode : Bool
  noCase : Bool
  noCom : Bool
  noStr : Bool
  fullStrings : Bool
  maxStrLength : Option Str
  splitNumbers : Bool
  ronin : Bool
  stem : Bool
deriving DecidableEq, Repr

/-- impl.py 112-117 `get_predefined_bpe_codes_id`; bperegistry.py `USER_PREDEFINED_BPE_CODES`. -/
def cliPredefinedId (a : CliArgs) : Option Str :=
  if a.k1 then some "1k".toList
  else if a.k5 then some "5k".toList
  else if a.k10 then some "10k".toList
  else if a.chars then some "0".toList
  else none

/-- impl.py 120-133 `create_split_value_from_args`. -/
def cliSplitValue (a : CliArgs) : Except PyErr Str :=
  if a.nosplit then createSplitValue "nosplit".toList none a.fullStrings false false false
  else if a.chars then createSplitValue "chars".toList none false false false false
  else if a.basic then createSplitValue "basic".toList none false a.splitNumbers a.ronin a.stem
  else if a.bpe then createSplitValue "bpe".toList (cliPredefinedId a) false false false false
  else .error .assertionError

/-- impl.py 99-109 `create_prep_config_from_args`. -/
def cliPrepConfig (a : CliArgs) : Except PyErr PrepConfig := do
  let n ← match a.maxStrLength with
    | none => .ok (sysMaxsize : Int)
    | some s => pyInt s
  let sv ← createStrValue a.noStr n
  let spv ← cliSplitValue a
  PrepConfig.make [
    (.enOnly, if a.noUnicode then ['U'] else ['u']),
    (.com, if a.noCom then ['0'] else ['c']),
    (.str, sv),
    (.split, spv),
    (.tabsNewlines, if a.noSpaces then ['0'] else ['s']),
    (.case, if a.noCase then ['l'] else ['u'])]

end Verif
