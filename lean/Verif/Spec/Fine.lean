import Verif.Model.Fine
import Verif.Spec.Conc
/-!
# What is said about calls and their goroutines
-/
namespace Visigoth

/-- What can be seen of a call from outside. -/
inductive Status where
  | running
  | returned (r : Ret)
  | crashed (e : Crash)

def Thread.status (x : Thread) : Status :=
  match x.prog with
  | .ret r => .returned r
  | .crash e => .crashed e
  | .act _ _ => .running

def FThread.status (x : FThread) : Status :=
  match x.st with
  | .run (.ret r) => .returned r
  | .run (.crash e) => .crashed e
  | _ => .running

/-- The call waits for its goroutines. -/
def FThread.waiting (x : FThread) : Bool :=
  match x.st with
  | .run _ => false
  | _ => true

/-- Call `x`, whose goroutines are interleaved with everything else, looks like call `y`, whose
goroutines run one after the other: same call, same choices of the runtime (except the completion order
of the goroutines, which is a choice only for `y`), same outcome. -/
structure SameCall (x : FThread) (y : Thread) : Prop where
  op : y.op = x.op
  keyOrder : y.oracle.keyOrder = x.oracle.keyOrder
  capacity : y.oracle.capacity = x.oracle.capacity
  status : y.status = x.status

/-- No running call has the index mutex to itself. -/
def FConfig.unwritten (c : FConfig) : Prop :=
  ∀ t x, c.calls[t]? = some x → x.status = .running → ¬ (c.sh.imu.writer = some t ∧ c.sh.imu.readers = [])

/-- No call is running. -/
def FConfig.quiet (c : FConfig) : Prop := ∀ x ∈ c.calls, x.status ≠ .running

/-- Configurations that cannot be told apart, except that the contents of the indices may differ while
a running call has the index mutex to itself. -/
structure Alike (c : FConfig) (d : Config) : Prop where
  len : c.calls.length = d.calls.length
  calls : ∀ (t : Tid) x, c.calls[t]? = some x → ∃ y, d.calls[t]? = some y ∧ SameCall x y
  indices : c.sh.indices = d.sh.indices
  aliases : c.sh.aliases = d.sh.aliases
  arrays : c.sh.arrays = d.sh.arrays
  imu : c.sh.imu = d.sh.imu
  amu : c.sh.amu = d.sh.amu
  objects : c.sh.heap.length = d.sh.heap.length
  heap : c.unwritten → c.sh.heap = d.sh.heap

/-- Some call or goroutine moves. -/
def FMoves (cfg : Cfg) (c c' : FConfig) : Prop := ∃ t, FTStep cfg t c c'

/-- Call `t` or one of its goroutines can move. -/
def FConfig.canMove (cfg : Cfg) (c : FConfig) (t : Tid) : Prop := ∃ c', FTStep cfg t c c'

/-- Some call that is over still holds a mutex. -/
def FConfig.leaked (c : FConfig) : Prop :=
  ∃ (t : Tid) (x : FThread) (m : Mu), c.calls[t]? = some x ∧ x.status ≠ .running ∧ c.sh.holds m t

/-- The documents of the `Put`s to `n` among some calls that have returned. -/
def finePutsReturned (n : Name) (calls : List FThread) : List DocRequest :=
  calls.filterMap fun x =>
    match x.op, x.status with
    | .put m d, .returned _ => if m = n then some d else none
    | _, _ => none

/-! ## Data races between goroutines -/

/-- The variables that goroutines share: the index map, each index, the alias map, the backing arrays of
the alias slices, and the variable `result` of each `Search` (repos_repo.go:199). -/
inductive Var where
  | names
  | index (p : Ptr)
  | aliases
  | arrays
  | result (t : Tid)
deriving DecidableEq

/-- What an action reads. -/
def Act.readsVar {β : Type} : Act β → Option Var
  | .idxGet _ | .idxKeys => some .names
  | .evalEngine p _ _ | .render p => some (.index p)
  | .alGet _ | .alKeys => some .aliases
  | .slRead .. => some .arrays
  | _ => none

/-- What an action writes, or reads and writes.  `newIndex` makes an object that nothing else can
access yet. -/
def Act.writesVar {β : Type} : Act β → Option Var
  | .idxSet .. | .idxDel _ => some .names
  | .docAppend p _ | .postAdd p _ _ => some (.index p)
  | .alSet .. | .alDel _ => some .aliases
  | .slWrite .. | .slAppend .. | .slNew _ => some .arrays
  | _ => none

/-- The goroutine in which a call was made (`none`), or the `i`-th goroutine it started. -/
abbrev Agent := Option Nat

/-- What an agent of call `t` is about to read. -/
def FThread.reads (t : Tid) (x : FThread) : Agent → Option Var
  | none =>
    match x.st with
    | .run (.act a _) => a.readsVar
    -- `return result` after `wg.Wait()` (repos_repo.go:212-213)
    | .searching _ _ gs _ _ _ => if ∀ g ∈ gs, g = .done then some (.result t) else none
    | _ => none
  | some i =>
    match x.st with
    | .putting gs _ =>
      match gs[i]? with
      | some (.act a _) => a.readsVar
      | _ => none
    | .searching _ _ gs _ _ _ =>
      match gs[i]? with
      | some (.start p) => some (.index p)
      | _ => none
    | _ => none

/-- What an agent of call `t` is about to write. -/
def FThread.writes (t : Tid) (x : FThread) : Agent → Option Var
  | none =>
    match x.st with
    | .run (.act a _) => a.writesVar
    | _ => none
  | some i =>
    match x.st with
    | .putting gs _ =>
      match gs[i]? with
      | some (.act a _) => a.writesVar
      | _ => none
    | .searching _ _ gs _ _ _ =>
      match gs[i]? with
      | some (.appending (_ :: _)) => some (.result t)
      | _ => none
    | _ => none

/-- Two different goroutines of the process are about to access the same variable, one of them to write
it. -/
def FConfig.race (c : FConfig) (t u : Tid) (g h : Agent) (v : Var) : Prop :=
  (t ≠ u ∨ g ≠ h) ∧ ∃ x y, c.calls[t]? = some x ∧ c.calls[u]? = some y ∧ x.writes t g = some v ∧
    (y.reads u h = some v ∨ y.writes u h = some v)

/-! ## Schedules -/

/-- Who moves next: the goroutine in which call `t` was made, a goroutine it started, or a new call. -/
inductive FSched where
  | go (t : Tid)
  | sub (t : Tid) (i : Nat)
  | call (op : Op) (o : Oracle)

end Visigoth
