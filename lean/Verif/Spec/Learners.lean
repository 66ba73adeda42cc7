import Verif.Model.Learners
import Verif.Spec.Registry
import Verif.Spec.Exec
/-!
# What is promised when merges are learnt by several programs at the same time
-/
namespace Verif.Spec

/-- The identifiers that a program may choose: the one given by the user, or the name of the dataset, maybe with a number. -/
def MayChoose (l : Learner) (id : Str) : Prop :=
  match l.given with
  | some (c :: r) => id = c :: r
  | _ => id = idBase l.path l.config ∨ ∃ n, 1 ≤ n ∧ id = idBase l.path l.config ++ '_' :: natStr n

/-- A program whose identifier can be stored, and whose dataset has a name without special characters unless an identifier is given. -/
def Sound (u : Ucd) (l : Learner) : Prop :=
  match l.given with
  | some (c :: r) => Storable u (c :: r)
  | _ => Storable u (idBase l.path l.config) ∧ NoSpecial (idBase l.path l.config)

/-- The program is about to write the identifier. -/
def Pending (w : LearnWorld) (dir id : Str) : Prop :=
  ∃ i l, w.learners i = some l ∧ l.dir = dir ∧ (l.phase = .opening id ∨ l.phase = .writing id)

/-- A run that has chosen an identifier and has no merges yet, since it is still going on or was killed. -/
def Unfinished (w : LearnWorld) (dir id : Str) : Prop :=
  Pending w dir id ∨ ∃ d ∈ w.reg, d.name = dir ∧ d.idFile = some id ∧ ¬ ∃ k : Int, Learnt d k ∧ 0 < k ∧ k ≤ sysMaxsize

/-- Nobody else is in the way when an identifier is chosen: no other dataset has an unfinished run with an identifier that could be chosen,
and an identifier given by the user is not in use. -/
def Clear (u : Ucd) (w : LearnWorld) (l : Learner) : Prop :=
  l.phase = .choose → (∀ dir id, Unfinished w dir id → dir ≠ l.dir → ¬ MayChoose l id) ∧
  ∀ id, id ≠ [] → l.given = some id → ∀ d ∈ w.reg, d.name ≠ l.dir → d.codesId u ≠ some id

/-- No other program is working for the same dataset when a program starts. -/
def Alone (w : LearnWorld) (l : Learner) : Prop := l.phase = .look → ∀ i l', w.learners i = some l' → l'.dir ≠ l.dir

/-- What can happen: programs start, go on, save their merges, and are killed, in any order.  `ok` says which programs there are, `may` when
one of them may start and choose an identifier. -/
inductive LearnStep (u : Ucd) (ok : Learner → Prop) (may : LearnWorld → Learner → Prop) : LearnWorld → LearnWorld → Prop
  | start {w : LearnWorld} (i : Nat) (l : Learner) (hi : w.learners i = none) (hl : ok l) (hc : may w { l with phase := .look }) :
      LearnStep u ok may w (w.start i l)
  | go {w : LearnWorld} (i : Nat) (l : Learner) (hi : w.learners i = some l) (hc : l.phase = .choose → may w l) : LearnStep u ok may w (w.go u i l)
  | finish {w : LearnWorld} (i : Nat) (l : Learner) (hi : w.learners i = some l) (hp : l.phase = .learn) (n : Nat) :
      LearnStep u ok may w (w.finish i l n)
  | kill {w : LearnWorld} (i : Nat) : LearnStep u ok may w (w.kill i)

/-- What can be reached from an empty directory. -/
def Learning (u : Ucd) (ok : Learner → Prop) (may : LearnWorld → Learner → Prop) (w : LearnWorld) : Prop :=
  Star (LearnStep u ok may) ⟨[], fun _ => none⟩ w

end Verif.Spec
