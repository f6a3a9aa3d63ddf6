import Verif.Model.Conc
import Verif.Spec.Repo
/-!
# What is said about concurrent calls
-/
namespace Visigoth

/-- The parts of the shared state that calls access: the index map together with the index objects,
the alias map, the backing arrays of the alias slices. -/
inductive Loc | indices | aliases | arrays
deriving DecidableEq, Repr

/-- What an action reads. -/
def Act.reads {β : Type} : Act β → Option Loc
  | .idxGet _ | .idxKeys | .evalEngine .. | .render _ => some .indices
  | .alGet _ | .alKeys => some .aliases
  | .slRead .. => some .arrays
  | _ => none

/-- What an action writes (or reads and writes). -/
def Act.writes {β : Type} : Act β → Option Loc
  | .idxSet .. | .idxDel _ | .newIndex _ | .docAppend .. | .postAdd .. => some .indices
  | .alSet .. | .alDel _ => some .aliases
  | .slWrite .. | .slAppend .. | .slNew _ => some .arrays
  | _ => none

/-- What the next action of a call reads. -/
def Thread.reads (x : Thread) : Option Loc :=
  match x.prog with
  | .act a _ => a.reads
  | _ => none

/-- What the next action of a call writes. -/
def Thread.writes (x : Thread) : Option Loc :=
  match x.prog with
  | .act a _ => a.writes
  | _ => none

/-- Two different calls are about to access the same part, one of them to write it. -/
def Config.race (c : Config) (t u : Tid) (l : Loc) : Prop :=
  t ≠ u ∧ ∃ x y, c.calls[t]? = some x ∧ c.calls[u]? = some y ∧ x.writes = some l ∧
    (y.reads = some l ∨ y.writes = some l)

/-- The call has neither returned nor panicked. -/
def Thread.running (x : Thread) : Prop :=
  match x.prog with
  | .act _ _ => True
  | _ => False

/-- Thread `t` has taken (or announced) mutex `m` and not released it. -/
def Shared.holds (s : Shared) (m : Mu) (t : Tid) : Prop := t ∈ (s.mu m).readers ∨ (s.mu m).writer = some t

/-- Some call that is over still holds a mutex. -/
def Config.leaked (c : Config) : Prop :=
  ∃ t x m, c.calls[t]? = some x ∧ ¬ x.running ∧ c.sh.holds m t

/-- Thread `t` can take its next step. -/
def Config.canMove (cfg : Cfg) (c : Config) (t : Tid) : Prop := ∃ c', TStep cfg t c c'

/-- Some call moves. -/
def Moves (cfg : Cfg) (c c' : Config) : Prop := ∃ t, TStep cfg t c c'

def Op.isUnAlias : Op → Bool
  | .unAlias .. => true
  | _ => false

/-- Results of a call that it can only give after taking the index mutex exclusively: any result of
`Put` and `Rename`, and a successful `Drop`. -/
def needsI : Op → Ret → Prop
  | .put .., _ => True
  | .rename .., _ => True
  | .drop _, r => r = .bool true
  | _, _ => False

/-- Results of a call that it can only give after looking at the alias table. -/
def needsA : Op → Ret → Prop
  | .hasAlias _, _ => True
  | .listAliases, _ => True
  | .unAlias _ i, r => i = [] ∨ r = .bool true
  | .alias .., r => r = .bool true
  | .drop _, r => r = .bool true
  | .search .., r => r = .noIndex
  | _, _ => False

/-- No call is running. -/
def Config.quiet (c : Config) : Prop := ∀ x ∈ c.calls, ¬ x.running

/-- No running call has the index mutex to itself. -/
def Config.unwritten (c : Config) : Prop :=
  ∀ t x, c.calls[t]? = some x → x.running → ¬ (c.sh.imu.writer = some t ∧ c.sh.imu.readers = [])

/-- Every element is related to the next, as points of an execution one after the other. -/
def Successive {α : Type _} (R : α → α → Prop) : List α → Prop
  | a :: b :: l => R a b ∧ Successive R (b :: l)
  | _ => True

/-- The documents of the `Put`s to `n` among some calls that have returned. -/
def putsReturned (n : Name) (calls : List Thread) : List DocRequest :=
  calls.filterMap fun x =>
    match x.op, x.prog with
    | .put m d, .ret _ => if m = n then some d else none
    | _, _ => none

/-- The calls that may take the index away from a name or give it another one. -/
def Op.moves (n : Name) : Op → Prop
  | .drop m => m = n
  | .rename m m' => m = n ∨ m' = n
  | _ => False

/-- The calls that may bind a name. -/
def Op.binds (n : Name) : Op → Prop
  | .put m _ => m = n
  | .rename _ m => m = n
  | _ => False

/-- The calls that may unbind a name. -/
def Op.unbinds (n : Name) : Op → Prop
  | .drop m => m = n
  | .rename m _ => m = n
  | _ => False

/-- A `Drop` that has returned true. -/
def Thread.dropped (x : Thread) : Bool :=
  match x.op, x.prog with
  | .drop _, .ret (.bool b) => b
  | _, _ => false

/-- `Drop` and `Rename`. -/
def Op.isDropOrRename : Op → Bool
  | .drop _ | .rename _ _ => true
  | _ => false

/-- While call `t` was running call `u`, a `Drop` or `Rename` of `n`, took its index away from `n`. -/
def RemovedDuring (cfg : Cfg) (n : Name) (t u : Tid) (c : Config) : Prop :=
  ∃ c1 c2 x y, ConcReachable cfg c1 ∧ TStep cfg u c1 c2 ∧ Steps cfg c2 c ∧
    (c1.sh.indices.get n).isSome = true ∧ c2.sh.indices.get n = none ∧
    c1.calls[t]? = some x ∧ x.running ∧ c1.calls[u]? = some y ∧ y.op.unbinds n

end Visigoth
