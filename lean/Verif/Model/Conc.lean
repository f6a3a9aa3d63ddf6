import Verif.Model.Repo
/-!
# Concurrent calls on one `IndexRepo`

Any number of calls of the `Repo` interface (repos_repo.go:12-23) run concurrently.  A configuration
is the shared state together with the rest of the program of every call made so far; a step lets one
call perform its next atomic action, or makes a new call.  The mutex actions are those of
`Model/Prog.lean`, with Go's rule that a waiting writer keeps new readers out.

Each call carries its own choices of the Go runtime (`Oracle`).

Simplifications: memory is sequentially consistent (the absence of data races, which makes this
adequate for Go, is itself a theorem, C51 and C98); after a panic the other calls go on, although in Go the
whole process would stop (so there are more executions here than in Go); the goroutines that `Put` and
`Search` start are run one after the other in a completion order chosen by the runtime
(`Model/Fine.lean` interleaves them with everything else, and `Props/Fine.lean`, C60, shows that this
makes no difference).
-/
namespace Visigoth

/-- A call: what was called, the runtime's choices, and what is left to do. -/
structure Thread where
  op : Op
  oracle : Oracle
  prog : Prog Ret

structure Config where
  sh : Shared
  calls : List Thread

/-- No call yet, empty repository. -/
def Config.init : Config := { sh := newIndexRepo, calls := [] }

/-- Thread `t` performs its next action. -/
inductive TStep (cfg : Cfg) (t : Tid) : Config → Config → Prop where
  | act {s s' : Shared} {calls : List Thread} {op : Op} {o : Oracle} {β : Type} {a : Act β} {k : β → Prog Ret} {b : β}
      (h : calls[t]? = some { op := op, oracle := o, prog := .act a k })
      (he : exec cfg o t a s = .ok b s') :
      TStep cfg t { sh := s, calls := calls }
        { sh := s', calls := calls.set t { op := op, oracle := o, prog := k b } }
  | crash {s : Shared} {calls : List Thread} {op : Op} {o : Oracle} {β : Type} {a : Act β} {k : β → Prog Ret} {e : Crash}
      (h : calls[t]? = some { op := op, oracle := o, prog := .act a k })
      (he : exec cfg o t a s = .crash e) :
      TStep cfg t { sh := s, calls := calls }
        { sh := s, calls := calls.set t { op := op, oracle := o, prog := .crash e } }

/-- A step: some call moves, or a new call is made. -/
inductive Step (cfg : Cfg) : Config → Config → Prop where
  | move {c c' : Config} (t : Tid) (h : TStep cfg t c c') : Step cfg c c'
  | invoke (c : Config) (op : Op) (o : Oracle) :
      Step cfg c { c with calls := c.calls ++ [{ op := op, oracle := o, prog := op.prog cfg }] }

/-- Executions. -/
inductive Steps (cfg : Cfg) : Config → Config → Prop where
  | refl (c : Config) : Steps cfg c c
  | tail {c c' c'' : Config} (h : Steps cfg c c') (hs : Step cfg c' c'') : Steps cfg c c''

/-- ConcReachable from an empty repository. -/
def ConcReachable (cfg : Cfg) (c : Config) : Prop := Steps cfg Config.init c

/-- Thread `t` has returned `r`. -/
def Config.returned (c : Config) (t : Tid) (r : Ret) : Prop := ∃ x, c.calls[t]? = some x ∧ x.prog = .ret r

/-- A schedule: who moves next, or which call is made. -/
inductive Sched where
  | go (t : Tid)
  | call (op : Op) (o : Oracle)

/-- One scheduled step; `none` if the call cannot move. -/
def Config.next (cfg : Cfg) (c : Config) : Sched → Option Config
  | .call op o => some { c with calls := c.calls ++ [{ op := op, oracle := o, prog := op.prog cfg }] }
  | .go t =>
    match c.calls[t]? with
    | some { op := op, oracle := o, prog := .act a k } =>
      match exec cfg o t a c.sh with
      | .ok b s' => some { sh := s', calls := c.calls.set t { op := op, oracle := o, prog := k b } }
      | .blocked => none
      | .crash e => some { sh := c.sh, calls := c.calls.set t { op := op, oracle := o, prog := .crash e } }
    | _ => none

/-- A whole schedule. -/
def Config.play (cfg : Cfg) (c : Config) : List Sched → Option Config
  | [] => some c
  | x :: xs =>
    match c.next cfg x with
    | some c' => c'.play cfg xs
    | none => none

end Visigoth
