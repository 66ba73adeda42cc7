import Verif.Model.Registry
/-!
# Model of programs that learn merges at the same time (`handle_learnbpe` of `codeprep/cli/impl.py`)

The programs and the directory with the learnt merges (`USER_BPE_DIR`) are a transition system.  Simplifications: all identifiers are read
at one moment (bperegistry.py 223-232), and of learning itself (`bpelearner.run`) only the last step is seen, the subdirectory with the merges.
-/
namespace Verif

/-- What a program does next: cli/impl.py 56 (look), bperegistry.py 100-119 (choose), 124 (open), 125 (write), cli/impl.py 62 (learn). -/
inductive LearnPhase where
  | look
  | choose
  | opening (id : Str)
  | writing (id : Str)
  | learn
deriving DecidableEq, Repr

/-- A program that learns: the path of its dataset, the configuration, the identifier given by the user, the directory of the dataset:
cli/impl.py 41, 42, 53, 54, dataset.py 150. -/
structure Learner where
  path : Str
  config : BpeConfig
  given : Option Str
  dir : Str
  phase : LearnPhase
deriving DecidableEq, Repr

/-- The directory with the learnt merges (bperegistry.py 223-232), and the programs by their numbers; processes are not part of the code. -/
structure LearnWorld where
  reg : Registry
  learners : Nat → Option Learner

/-- Writing to the file with the identifier of a directory: bperegistry.py 122-125. -/
def setId (reg : Registry) (d s : Str) : Registry := reg.map fun e => if e.name = d then { e with idFile := some s } else e

/-- The next step of a program before it learns: cli/impl.py 56, 57 with dataset.py 245-251 and bperegistry.py 91-125.  The file with the
identifier is opened, and thereby emptied, before it is written.  `none`: the program ends with an exception. -/
def Learner.advance (u : Ucd) (reg : Registry) (l : Learner) : Registry × Option Learner :=
  match l.phase with
  | .look => match (reg.find? (·.name = l.dir)).bind (·.codesId u) with
    | some (_ :: _) => (reg, some { l with phase := .learn })
    | _ => (reg, some { l with phase := .choose })
  | .choose => match createNewId u reg l.path l.config l.given with
    | .error _ => (reg, none)
    | .ok id => (reg, some { l with phase := .opening id })
  | .opening id => (setId reg l.dir [], some { l with phase := .writing id })
  | .writing id => (setId reg l.dir id, some { l with phase := .learn })
  | .learn => (reg, some l)

/-- Changing what a program does next; not part of the code. -/
def setLearner (f : Nat → Option Learner) (i : Nat) (l : Option Learner) : Nat → Option Learner := fun j => if j = i then l else f j

/-- A program starts: cli/impl.py 54, dataset.py 150-151. -/
def LearnWorld.start (w : LearnWorld) (i : Nat) (l : Learner) : LearnWorld := ⟨ensureDir w.reg l.dir, setLearner w.learners i (some { l with phase := .look })⟩

/-- A program goes on: cli/impl.py 56-57, one step. -/
def LearnWorld.go (u : Ucd) (w : LearnWorld) (i : Nat) (l : Learner) : LearnWorld :=
  ⟨(l.advance u w.reg).1, setLearner w.learners i (l.advance u w.reg).2⟩

/-- A program saves its merges and ends: bpelearner.py 110-115. -/
def LearnWorld.finish (w : LearnWorld) (i : Nat) (l : Learner) (n : Nat) : LearnWorld :=
  ⟨saveMerges w.reg l.dir n, setLearner w.learners i none⟩

/-- A program is killed; not part of the code. -/
def LearnWorld.kill (w : LearnWorld) (i : Nat) : LearnWorld := ⟨w.reg, setLearner w.learners i none⟩

end Verif
