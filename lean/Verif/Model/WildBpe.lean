import Verif.Model.Merge
/-!
# Model of `codeprep/bpepkg/wild_bpe.py`: byte-pair encoding of a whole text, with two indices

Pairs of tokens are strings: the two tokens with a space between them.  Positions in the text are integers.

Python sets are lists without repetitions.  The order in which a set is iterated over is not specified, so it is a parameter
(`Order.iter`); adding to a set while it is iterated over raises `RuntimeError` (CPython compares the sizes before every step).
Both indices are `defaultdict`s: looking up a missing key gives an empty list or two empty sets (and stores them; the stored
empty entries are overwritten or deleted before anybody asks for the keys).

`run` is a generator; the model delivers the list of all that is yielded, without the performance statistics (see `Model/WildStats`).
-/
namespace Verif.Wild
open Verif

/-- wild_bpe.py 38-50 `Side`. -/
inductive Side where
  | right | left
deriving DecidableEq, Repr

/-- wild_bpe.py 46-50 `opposite`. -/
def Side.opposite : Side → Side
  | .left => .right
  | .right => .left

/-- wild_bpe.py 42-44 `Side.any()`. -/
def Side.any : Side := .left

/-- The location index. -/
abbrev Loc := Dict Str (List Int)

/-- `location_index[pair]`. -/
def look (loc : Loc) (p : Str) : List Int := (loc.get? p).getD []

/-- The neighbours of a pair on both sides. -/
structure Sides where
  left : List Str
  right : List Str
deriving DecidableEq, Repr

def Sides.at (s : Sides) : Side → List Str
  | .left => s.left
  | .right => s.right

/-- `set.add`. -/
def setAdd (l : List Str) (x : Str) : List Str := if x ∈ l then l else l ++ [x]

def Sides.add (s : Sides) (side : Side) (x : Str) : Sides :=
  match side with
  | .left => { s with left := setAdd s.left x }
  | .right => { s with right := setAdd s.right x }

/-- The neighbour index. -/
abbrev Nb := Dict Str Sides

/-- `neighbour_index[pair]`. -/
def nbs (nb : Nb) (p : Str) : Sides := (nb.get? p).getD ⟨[], []⟩

/-- `neighbour_index[pair][side].add(x)`. -/
def nbAdd (nb : Nb) (p : Str) (side : Side) (x : Str) : Nb := nb.set p ((nbs nb p).add side x)

/-- What the environment decides: the order of iteration over sets, and which of several smallest entries a heap delivers. -/
structure Order (ε : Type) where
  iter : List Str → List Str
  pop : List ε → Option (ε × List ε)

/-! ## Pairs (wild_bpe.py 191-234) -/

/-- `pair.split(" ")[i]`. -/
def part (p : Str) (i : Nat) : Except PyErr Str :=
  match (pySplit ' ' p)[i]? with
  | some s => .ok s
  | none => .error .indexError

/-- `" ".join([x, y])`. -/
def join (x y : Str) : Str := pyJoin [' '] [x, y]

/-- wild_bpe.py 196-197 `merge_pair`. -/
def mergePair (p : Str) : Str := concat (pySplit ' ' p)

/-- wild_bpe.py 211-222 `can_be_concat`. -/
def canBeConcat (main p : Str) (side : Side) : Except PyErr Bool := do
  match side with
  | .left => return (← part main 0) = (← part p 1)
  | .right => return (← part main 1) = (← part p 0)

/-- wild_bpe.py 200-208 `concat_pairs`. -/
def concatPairs (main p : Str) (side : Side) : Except PyErr Str := do
  if !(← canBeConcat main p side) then .error .assertionError
  else match side with
    | .left => return join (← part p 0) (mergePair main)
    | .right => return join (mergePair main) (← part p 1)

/-- wild_bpe.py 225-227 `double_pair`. -/
def doublePair (p : Str) : Str := join (mergePair p) (mergePair p)

/-- wild_bpe.py 230-234 `calc_position_shift`. -/
def positionShift (main p : Str) (side : Side) : Except PyErr Int := do
  match side with
  | .left => return - ((← part p 0).length : Int)
  | .right => return ((← part main 0).length : Int)

/-! ## Lists of positions -/

/-- wild_bpe.py 125-139 `merge_lists`, the iterations of the loop for one `i`: `k` is the rest of the loop, for `i + 1`. -/
def mergeListsGo (x shift : Int) (k : List Int → List Int × List Int) : List Int → List Int × List Int
  | [] => ([], [])
  | y :: l =>
    if x + shift = y then
      let r := k l
      (r.1, min x y :: r.2)
    else if x + shift > y then
      let r := mergeListsGo x shift k l
      (y :: r.1, r.2)
    else k (y :: l)

/-- wild_bpe.py 125-139 `merge_lists`: what is left of the second list, and the positions of merged entries. -/
def mergeLists (shift : Int) : List Int → List Int → List Int × List Int
  | [], l => (l, [])
  | x :: m, l => mergeListsGo x shift (mergeLists shift m) l

/-- wild_bpe.py 175-186, the iterations of the loop of `merge_lists_both` for one `i` (`x`, with `x'` at `i + 1`). -/
def mergeBothGo (x x' s0 s1 : Int) (k : List Int → List Int × List Int) : List Int → List Int × List Int
  | [] => ([], [])
  | y :: l =>
    if x + s0 = y then
      let r := k l
      if x' + s1 = y then (r.1, x :: r.2) else (y :: r.1, r.2)
    else if x + s0 > y then
      let r := mergeBothGo x x' s0 s1 k l
      (y :: r.1, r.2)
    else k (y :: l)

/-- wild_bpe.py 171-188, the loop of `merge_lists_both`. -/
def mergeBothLoop (s0 s1 : Int) : List Int → List Int → List Int × List Int
  | x :: x' :: m, l => mergeBothGo x x' s0 s1 (mergeBothLoop s0 s1 (x' :: m)) l
  | _, l => (l, [])

/-- wild_bpe.py 154-188 `merge_lists_both`. -/
def mergeListsBoth (main l : List Int) (s0 s1 : Int) : Except PyErr (List Int × List Int) :=
  if !(s0 > 0 && s1 < 0) then .error .assertionError
  else if main = l then .error .assertionError
  else .ok (mergeBothLoop s0 s1 main l)

/-- wild_bpe.py 245-264 `choose_positions_to_merge`. -/
def choosePositions (shift : Int) : List Int → List Int × List Int
  | x :: y :: r =>
    if x + shift = y then
      let p := choosePositions shift r
      (x :: p.1, y :: p.2)
    else
      let p := choosePositions shift (y :: r)
      (x :: p.1, p.2)
  | l => (l, [])

/-! ## Building the indices -/

/-- wild_bpe.py 114-121: the loop of `build_indices`. -/
def buildLoop (i : Int) (first : Str) (last : Option Str) : List Str → Loc → Nb → Loc × Nb
  | [], loc, nb => (loc, nb)
  | second :: r, loc, nb =>
    let key := join first second
    let loc := loc.set key (look loc key ++ [i])
    let nb := match last with
      | none => nb
      | some l => nbAdd (nbAdd nb l .right key) key .left l
    buildLoop (i + 1) second (some key) r loc nb

/-- wild_bpe.py 109-122 `build_indices`; the `StopIteration` of `next(it)` leaves the generator `run` as a `RuntimeError`. -/
def buildIndices : List Str → Except PyErr (Loc × Nb)
  | [] => .error .runtimeError
  | c :: r => .ok (buildLoop 0 c none r [] [])

/-! ## Updating the location index (wild_bpe.py 267-335) -/

/-- wild_bpe.py 319, 329: one change of the numbers of occurrences. -/
structure Change where
  appeared : Str
  first : Int
  disappearing : Str
  firstLeft : Int
  n : Int
deriving DecidableEq, Repr

/-- wild_bpe.py 316-319, 326-329. -/
def record (loc : Loc) (ch : List Change) (appeared d : Str) (locs left : List Int) : Loc × List Change :=
  match locs with
  | [] => (loc, ch)
  | p :: _ => (loc.set appeared locs, ch ++ [⟨appeared, p, d, (left.head?).getD (-1), locs.length⟩])

/-- wild_bpe.py 298-303: the positions of the disappearing pair; `none` stands for `continue`.  `dis` is unset unless the pair
that is merged is its own neighbour. -/
def positionsOf (pair : Str) (dis : Option (List Int)) (side : Side) (d : Str) (loc : Loc) :
    Except PyErr (Option (List Int)) :=
  if pair ≠ d then .ok (some (look loc d))
  else if side = .right then
    match dis with
    | some l => .ok (some l)
    | none => .error .nameError
  else .ok none

/-- wild_bpe.py 306-319: the pair that is merged occurs twice, with the disappearing pair in between. -/
def updateDouble (pair : Str) (main : List Int) (side : Side) (d : Str) (l : List Int) (s : Loc × List Change) :
    Except PyErr (List Int × Loc × List Change) := do
  if (← canBeConcat d pair side) && side = .right then
    let s0 ← positionShift pair d side
    let s1 ← positionShift pair d side.opposite
    let r ← mergeListsBoth main l s0 s1
    return (r.1, record s.1 s.2 (doublePair pair) d r.2 r.1)
  else return (l, s)

/-- wild_bpe.py 297-331: the body of the loop over the disappearing pairs. -/
def updateOne (pair : Str) (main : List Int) (dis : Option (List Int)) (side : Side) (s : Loc × List Change) (d : Str) :
    Except PyErr (Loc × List Change) := do
  match (← positionsOf pair dis side d s.1) with
  | none => return s
  | some l =>
    let r ← updateDouble pair main side d l s
    let appeared ← concatPairs pair d side
    let shift ← positionShift pair d side
    let m := mergeLists shift main r.1
    let s := record r.2.1 r.2.2 appeared d m.2 m.1
    return (s.1.set d m.1, s.2)

/-- A loop whose body may raise. -/
def loopM {σ : Type} (f : σ → Str → Except PyErr σ) : List Str → σ → Except PyErr σ
  | [], s => .ok s
  | x :: r, s => do loopM f r (← f s x)

/-- wild_bpe.py 268-271: pairs that no longer occur are deleted. -/
def dropEmpty (loc : Loc) : List Str → Loc
  | [] => loc
  | d :: r => dropEmpty (if look loc d = [] then loc.del d else loc) r

/-- wild_bpe.py 267-275 `cleanup_location_index`. -/
def cleanupLocation {ε : Type} (o : Order ε) (loc : Loc) (pair : Str) (dp : Sides) : Loc :=
  (dropEmpty (dropEmpty loc (o.iter dp.right)) (o.iter dp.left)).del pair

/-- wild_bpe.py 290-295: the positions at which the pair is merged, and those at which it disappears because it overlaps. -/
def mainPositions (loc : Loc) (nb : Nb) (pair : Str) : Except PyErr (List Int × Option (List Int)) := do
  let main := look loc pair
  if pair ∈ (nbs nb pair).at Side.any then
    let r := choosePositions (← positionShift pair pair .right) main
    return (r.1, some r.2)
  else return (main, none)

/-- wild_bpe.py 287-335 `update_location_index`. -/
def updateLocation {ε : Type} (o : Order ε) (loc : Loc) (nb : Nb) (pair : Str) : Except PyErr (Loc × List Change) := do
  let dp := nbs nb pair
  let m ← mainPositions loc nb pair
  let s ← loopM (updateOne pair m.1 m.2 .right) (o.iter (dp.at .right)) (loc, [])
  let s ← loopM (updateOne pair m.1 m.2 .left) (o.iter (dp.at .left)) s
  return (cleanupLocation o s.1 pair dp, s.2)

/-! ## Updating the neighbour index (wild_bpe.py 237-242, 278-284, 338-372) -/

/-- wild_bpe.py 237-242 `add_pairs_to_neighbour_index`. -/
def addPairs (loc : Loc) (nb : Nb) (p1 p2 : Str) (side : Side) : Except PyErr Nb := do
  if !(← canBeConcat p1 p2 side) then .error .assertionError
  else if loc.has p2 then return nbAdd (nbAdd nb p1 side p2) p2 side.opposite p1
  else return nb

/-- The steps of an iteration over the set `get nb`, which had `n` elements in the beginning. -/
def forSetLoop (get : Nb → List Str) (n : Nat) (body : Nb → Str → Except PyErr Nb) : List Str → Nb → Except PyErr Nb
  | [], nb => .ok nb
  | x :: r, nb => do
    let nb ← body nb x
    if (get nb).length ≠ n then .error .runtimeError
    else forSetLoop get n body r nb

/-- `for x in get nb: …`. -/
def forSet {ε : Type} (o : Order ε) (get : Nb → List Str) (body : Nb → Str → Except PyErr Nb) (nb : Nb) : Except PyErr Nb :=
  forSetLoop get (get nb).length body (o.iter (get nb)) nb

/-- wild_bpe.py 347-351, 356-361, 366-370: add the pair `q`, and, if it fits on the other side as well, `q` with the merged pair there. -/
def addBoth (loc : Loc) (pair p1 q : Str) (side : Side) (nb : Nb) : Except PyErr Nb := do
  let nb ← addPairs loc nb p1 q side
  if (← canBeConcat pair q side.opposite) then
    addPairs loc nb p1 (← concatPairs pair q side.opposite) side
  else return nb

/-- wild_bpe.py 342-351: the neighbours of the doubled pair. -/
def updateDoubleNb {ε : Type} (o : Order ε) (loc : Loc) (pair : Str) (side : Side) (d : Str) (nb : Nb) : Except PyErr Nb := do
  if (← canBeConcat d pair side) && loc.has (doublePair pair) then
    forSet o (fun nb => (nbs nb pair).at side)
      (fun nb d2 => do addBoth loc pair (doublePair pair) (← concatPairs pair d2 side) side nb) nb
  else return nb

/-- wild_bpe.py 341-370: the body of the loop over the disappearing pairs. -/
def updateNbOne {ε : Type} (o : Order ε) (loc : Loc) (pair : Str) (side : Side) (nb : Nb) (d : Str) : Except PyErr Nb := do
  let nb ← updateDoubleNb o loc pair side d nb
  let appeared ← concatPairs pair d side
  if loc.has appeared then
    let nb ← forSet o (fun nb => (nbs nb d).at side) (fun nb q => addBoth loc pair appeared q side nb) nb
    forSet o (fun nb => (nbs nb pair).at side.opposite)
      (fun nb q => do addBoth loc pair appeared (← concatPairs pair q side.opposite) side.opposite nb) nb
  else return nb

/-- wild_bpe.py 281-283: entries of pairs that no longer occur are deleted; the iteration is over a set that is not changed. -/
def dropNb (loc : Loc) (nb : Nb) : List Str → Nb
  | [] => nb
  | d :: r => dropNb loc (if !loc.has d && nb.has d then nb.del d else nb) r

/-- wild_bpe.py 278-284 `cleanup_neighbour_index`.  Looking up `neighbour_index[most_freq_pair]` stores an entry if there is none,
so the last `del` fails only if the loop over the left neighbours has deleted the entry. -/
def cleanupNb {ε : Type} (o : Order ε) (loc : Loc) (nb : Nb) (pair : Str) : Except PyErr Nb :=
  let nb := nb.set pair (nbs nb pair)
  let nb := dropNb loc nb (o.iter ((nbs nb pair).at .right))
  let nb := nb.set pair (nbs nb pair)
  let nb := dropNb loc nb (o.iter ((nbs nb pair).at .left))
  if nb.has pair then .ok (nb.del pair) else .error .keyError

/-- wild_bpe.py 338-372 `update_neighbour_index`. -/
def updateNb {ε : Type} (o : Order ε) (loc : Loc) (nb : Nb) (pair : Str) : Except PyErr Nb := do
  let nb ← forSet o (fun nb => (nbs nb pair).at .right) (updateNbOne o loc pair .right) nb
  let nb ← forSet o (fun nb => (nbs nb pair).at .left) (updateNbOne o loc pair .left) nb
  cleanupNb o loc nb pair

/-! ## The queue of pairs: `PriorityCounter` without automatic counting (util.py 123-159) -/

/-- An entry `[(priority, count), key]`; `none` is the mark `REMOVED`. -/
structure Entry where
  prio : Int
  count : Int
  key : Option Str
deriving DecidableEq, Repr

/-- The heap and the dictionary of entries; the entry of a key is the one in the heap that has the key. -/
structure Queue where
  pq : List Entry
  finder : Dict Str Int

/-- util.py 126-130 `__init__(d, automatic_count=False)`. -/
def Queue.init (d : List (Str × Int × Int)) : Queue where
  pq := d.map fun e => ⟨-e.2.1, e.2.2, some e.1⟩
  finder := d.map fun e => (e.1, -e.2.1)

/-- util.py 147-150 `remove_task`, for a key that has an entry. -/
def Queue.remove (q : Queue) (k : Str) : Queue where
  pq := q.pq.map fun e => if e.key = some k then { e with key := none } else e
  finder := q.finder.del k

/-- util.py 142-145. -/
def Queue.push (q : Queue) (k : Str) (prio c : Int) : Queue :=
  if prio ≠ 0 then ⟨⟨prio, c, some k⟩ :: q.pq, q.finder.set k prio⟩ else q

/-- util.py 132-145 `add(pair, to_add, c)` (the `ValueError` cannot occur: there is no counter and `c` is passed). -/
def Queue.add (q : Queue) (k : Str) (toAdd c : Int) : Queue :=
  match q.finder.get? k with
  | some p => (q.remove k).push k (p + -toAdd) c
  | none => q.push k (-toAdd) c

/-- util.py 152-159 `pop_pair`; `none` stands for the `KeyError`.  The fuel is the number of entries. -/
def Queue.popLoop (o : Order Entry) : Nat → Queue → Option (Str × Int × Queue)
  | 0, _ => none
  | n + 1, q =>
    match o.pop q.pq with
    | none => none
    | some (e, r) =>
      match e.key with
      | some k => some (k, -e.prio, ⟨r, q.finder.del k⟩)
      | none => popLoop o n ⟨r, q.finder⟩

/-- util.py 152-159 `pop_pair`. -/
def Queue.popPair (o : Order Entry) (q : Queue) : Option (Str × Int × Queue) := Queue.popLoop o q.pq.length q

/-! ## The algorithm -/

/-- wild_bpe.py 411-416: the changes of the queue. -/
def applyChanges (pair : Str) : List Change → Queue → Int → Queue × Int
  | [], q, occ => (q, occ)
  | c :: r, q, occ =>
    let q := q.add c.appeared c.n c.first
    if c.disappearing ≠ pair then applyChanges pair r (q.add c.disappearing (-c.n) c.firstLeft) occ
    else applyChanges pair r q (occ - c.n)

/-- wild_bpe.py 402-448: `n` merges. -/
def runLoop (o : Order Entry) : Nat → Loc → Nb → Queue → Except PyErr (List (Str × Int))
  | 0, _, _, _ => .ok []
  | n + 1, loc, nb, q =>
    match q.popPair o with
    | none => .ok []
    | some (pair, occ, q) => do
      let r ← updateLocation o loc nb pair
      let a := applyChanges pair r.2 q occ
      let nb ← updateNb o r.1 nb pair
      let rest ← runLoop o n r.1 nb a.1
      return (pair, a.2) :: rest

/-- wild_bpe.py 382: `(len(v), v[0])` for every pair. -/
def queueEntry (e : Str × List Int) : Except PyErr (Str × Int × Int) :=
  match e.2 with
  | [] => .error .indexError
  | x :: r => .ok (e.1, (x :: r).length, x)

/-- wild_bpe.py 375-451 `run`, without performance statistics; a negative number of merges is the same as 0. -/
def run (o : Order Entry) (chars : List Str) (n : Nat) : Except PyErr (List (Str × Int)) := do
  let idx ← buildIndices chars
  let es ← idx.1.mapM queueEntry
  runLoop o n idx.1 idx.2 (Queue.init es)

/-- wild_bpe.py 464-503 `run_from_text`. -/
def runFromText (o : Order Entry) (text : Str) (n : Nat) : Except PyErr (List (Str × Int)) :=
  run o (text.map fun c => [c]) n

/-- wild_bpe.py 60-61 `escape_char`: a space becomes a no-break space. -/
def escapeChar (c : Char) : Str := if c = ' ' then [Char.ofNat 0xA0] else [c]

/-- The content of a file.  It is decoded block by block (`TextIOWrapper` reads 8192 bytes at a time): the characters of every block
read as UTF-8 (`none` for a block that cannot be decoded), and the characters of the whole file read as ISO-8859-1. -/
structure File where
  blocks : List (Option Str)
  latin : Str
deriving DecidableEq, Repr

/-- wild_bpe.py 64-72, 55 `get_char_iterator_for_file_with_encoding(path, 'utf-8')`: the characters that are yielded, and whether
`UnicodeDecodeError` is raised afterwards. -/
def utf8Chars : List (Option Str) → List Str × Bool
  | [] => ([], false)
  | none :: _ => ([], true)
  | some t :: r => (t.map escapeChar ++ (utf8Chars r).1, (utf8Chars r).2)

/-- wild_bpe.py 53-57 `get_char_iterator_for_file`. -/
def fileChars (f : File) : List Str :=
  let u := utf8Chars f.blocks
  if u.2 then u.1 ++ f.latin.map escapeChar else u.1

/-- wild_bpe.py 454-456 `run_from_file`. -/
def runFromFile (o : Order Entry) (f : File) (n : Nat) : Except PyErr (List (Str × Int)) := run o (fileChars f) n

/-- wild_bpe.py 75-81 `get_char_iterator_for_dir`; the files with their names, in the order of `os.walk`. -/
def dirChars : List (Str × File) → List Str
  | [] => []
  | (name, f) :: r =>
    if ".py".toList <:+ name then fileChars f ++ List.replicate 3 "\n".toList ++ dirChars r else dirChars r

/-- wild_bpe.py 459-461 `run_from_dir`. -/
def runFromDir (o : Order Entry) (files : List (Str × File)) (n : Nat) : Except PyErr (List (Str × Int)) := run o (dirChars files) n

end Verif.Wild
