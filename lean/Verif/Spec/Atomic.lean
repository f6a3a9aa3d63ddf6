import Verif.Spec.Conc
/-!
# Specification of a repository used by concurrent callers

Calls take effect in at most two atomic steps.  `Put`, `Drop` and `UnAlias` first look at the
repository and later act on what they saw; every other call is one step.  Because a `Put` may act on an
index that has been dropped or renamed in the meantime, indices are objects with an identity.  Nothing
here mentions mutexes, Go maps, slices or goroutines.
-/
namespace Visigoth

/-- Names refer to index objects; an object is the list of requests put into it. -/
structure ObjState where
  index : Name → Option Nat
  objs : List (List DocRequest)
  aliases : Name → Option (List Name)

/-- The empty repository. -/
def ObjState.empty : ObjState := ⟨fun _ => none, [], fun _ => none⟩

/-- The documents of a name. -/
def ObjState.docs (a : ObjState) (n : Name) : Option (List DocRequest) := (a.index n).bind (a.objs[·]?)

/-- The same repository as seen by one caller. -/
def ObjState.spec (a : ObjState) : SpecState := ⟨a.docs, a.aliases, 0, false⟩

/-- The objects a name stands for; a listed name without index stands for `none`. -/
def ObjState.targets (a : ObjState) (n : Name) : Option (List (Option Nat)) :=
  match a.index n with
  | some p => some [some p]
  | none => (a.aliases n).map (List.map a.index)

/-- Put a request into each of the given objects. -/
def putObjs (objs : List (List DocRequest)) (ps : List Nat) (d : DocRequest) : List (List DocRequest) :=
  objs.mapIdx fun i rs => if i ∈ ps then rs ++ [d] else rs

/-- How far a call has got. -/
inductive Task
  /-- nothing done -/
  | call (op : Op)
  /-- `Put n d` has resolved its name -/
  | putting (n : Name) (d : DocRequest) (ts : Option (List (Option Nat)))
  /-- `Drop n` has found the index -/
  | dropping (n : Name)
  /-- `UnAlias al i` has found the index -/
  | unAliasing (al i : Name)
  | over (r : SRet)
  | dead (e : Crash)

/-- One atomic step of a call. -/
inductive Atomic (cfg : Cfg) : ObjState → Task → ObjState → Task → Prop where
  | read {a : ObjState} {op : Op} {r : SRet} (hr : op.isRead = true) (h : a.spec.allows cfg op r) :
      Atomic cfg a (.call op) a (.over r)
  | searchDies {a : ObjState} {n : Name} {ts : Str} {e : Engine} {c : Crash} (h : a.spec.crashes cfg (.search n ts e) c) :
      Atomic cfg a (.call (.search n ts e)) a (.dead c)
  | aliasUnknown {a : ObjState} {al i : Name} (h : a.index i = none) :
      Atomic cfg a (.call (.alias al i)) a (.over (.bool false))
  | aliasThere {a : ObjState} {al i : Name} (h : (a.index i).isSome = true) {l : List Name} (hl : a.aliases al = some l)
      (hi : i ∈ l) : Atomic cfg a (.call (.alias al i)) a (.over (.bool false))
  | aliasAdd {a : ObjState} {al i : Name} (h : (a.index i).isSome = true) (hi : i ∉ (a.aliases al).getD []) :
      Atomic cfg a (.call (.alias al i)) { a with aliases := upd a.aliases al (some ((a.aliases al).getD [] ++ [i])) }
        (.over (.bool true))
  | unAliasAll {a : ObjState} {al : Name} :
      Atomic cfg a (.call (.unAlias al [])) { a with aliases := upd a.aliases al none }
        (.over (.bool (a.aliases al).isSome))
  | unAliasUnknown {a : ObjState} {al i : Name} (hi : i ≠ []) (h : a.index i = none) :
      Atomic cfg a (.call (.unAlias al i)) a (.over (.bool false))
  | unAliasFound {a : ObjState} {al i : Name} (hi : i ≠ []) (h : (a.index i).isSome = true) :
      Atomic cfg a (.call (.unAlias al i)) a (.unAliasing al i)
  | unAliasMissing {a : ObjState} {al i : Name} (h : a.aliases al = none) :
      Atomic cfg a (.unAliasing al i) a (.over (.bool false))
  | unAliasRemove {a : ObjState} {al i : Name} {l : List Name} (h : a.aliases al = some l) :
      Atomic cfg a (.unAliasing al i) { a with aliases := upd a.aliases al (some (l.filter fun x => x ≠ i)) }
        (.over (.bool true))
  | putResolve {a : ObjState} {n : Name} {d : DocRequest} :
      Atomic cfg a (.call (.put n d)) a (.putting n d (a.targets n))
  | putNew {a : ObjState} {n : Name} {d : DocRequest} :
      Atomic cfg a (.putting n d none) { a with index := upd a.index n (some a.objs.length), objs := a.objs ++ [[d]] }
        (.over .unit)
  | putAll {a : ObjState} {n : Name} {d : DocRequest} {ps : List Nat} (h : ps.Nodup) :
      Atomic cfg a (.putting n d (some (ps.map some))) { a with objs := putObjs a.objs ps d } (.over .unit)
  | putNil {a : ObjState} {n : Name} {d : DocRequest} {ts : List (Option Nat)} (h : none ∈ ts) :
      Atomic cfg a (.putting n d (some ts)) a (.dead .nilIndex)
  | putTwice {a : ObjState} {n : Name} {d : DocRequest} {ps : List Nat} (h : ¬ ps.Nodup) :
      Atomic cfg a (.putting n d (some (ps.map some))) a (.dead .race)
  | renameUnknown {a : ObjState} {old new : Name} (h : a.index old = none) :
      Atomic cfg a (.call (.rename old new)) a (.over (.bool false))
  | rename {a : ObjState} {old new : Name} {p : Nat} (h : a.index old = some p) :
      Atomic cfg a (.call (.rename old new))
        { a with
          index := upd (upd a.index new (some p)) old none
          aliases := fun k => (a.aliases k).map (List.map fun x => if x = old then new else x) }
        (.over (.bool true))
  | dropUnknown {a : ObjState} {n : Name} (h : a.index n = none) :
      Atomic cfg a (.call (.drop n)) a (.over (.bool false))
  | dropFound {a : ObjState} {n : Name} (h : (a.index n).isSome = true) :
      Atomic cfg a (.call (.drop n)) a (.dropping n)
  | dropRemove {a : ObjState} {n : Name} :
      Atomic cfg a (.dropping n)
        { a with
          index := upd a.index n none
          aliases := fun k => (a.aliases k).bind fun l =>
            if l.filter (fun x => x ≠ n) = [] then none else some (l.filter fun x => x ≠ n) }
        (.over (.bool true))

/-- The atomic steps of one call, nothing in between. -/
inductive Alone (cfg : Cfg) : ObjState → Task → ObjState → Task → Prop where
  | done (a : ObjState) (k : Task) : Alone cfg a k a k
  | step {a a1 a' : ObjState} {k k1 k' : Task} (h : Atomic cfg a k a1 k1) (h' : Alone cfg a1 k1 a' k') : Alone cfg a k a' k'

/-- A repository and the calls made so far. -/
structure AConfig where
  st : ObjState
  tasks : List (Op × Task)

def AConfig.init : AConfig := ⟨.empty, []⟩

/-- A call takes an atomic step, or a new call is made. -/
inductive AStep (cfg : Cfg) : AConfig → AConfig → Prop where
  | run {a a' : ObjState} {ts : List (Op × Task)} (t : Tid) {op : Op} {k k' : Task} (h : ts[t]? = some (op, k))
      (hs : Atomic cfg a k a' k') : AStep cfg ⟨a, ts⟩ ⟨a', ts.set t (op, k')⟩
  | invoke (c : AConfig) (op : Op) : AStep cfg c ⟨c.st, c.tasks ++ [(op, .call op)]⟩

inductive ASteps (cfg : Cfg) : AConfig → AConfig → Prop where
  | refl (c : AConfig) : ASteps cfg c c
  | tail {c c' c'' : AConfig} (h : ASteps cfg c c') (hs : AStep cfg c' c'') : ASteps cfg c c''

/-- Reachable from the empty repository. -/
def AReachable (cfg : Cfg) (c : AConfig) : Prop := ASteps cfg AConfig.init c

/-- A value returned by a method agrees with a value of the specification.  The slices in the rows of
`ListAliases` are not compared. -/
def Ret.agrees : Ret → SRet → Prop
  | .bool b, .bool b' => b = b'
  | .names l, .names l' => l = l'
  | .rows l, .rows l' => l.map (·.1) = l'.map (·.1)
  | .unit, .unit => True
  | .results l, .results l' => l = l'
  | .noIndex, .noIndex => True
  | .text t, .text t' => t = t'
  | _, _ => False

/-- The repository `s` is in the state `a`. -/
structure Shows (cfg : Cfg) (s : Shared) (a : ObjState) : Prop where
  index : ∀ n, s.indices.get n = a.index n
  objs : ∀ (p : Nat) rs, a.objs[p]? = some rs → ∃ nm, s.heap[p]? = some (buildIndex cfg.tok nm rs)
  bound : ∀ n p, a.index n = some p → p < a.objs.length
  aliases : ∀ n, (s.aliases.get n).map s.elems = a.aliases n

/-- What can be seen of an interleaved execution agrees with an execution of atomic steps: the same
calls have been made, every call that is over has taken its last step, with the same result, and when
all calls are over the states agree. -/
structure Observed (cfg : Cfg) (c : Config) (A : AConfig) : Prop where
  calls : A.tasks.map (·.1) = c.calls.map (·.op)
  returned : ∀ (t : Nat) x r, c.calls[t]? = some x → x.prog = .ret r →
    ∃ v, A.tasks[t]? = some (x.op, .over v) ∧ r.agrees v
  crashed : ∀ (t : Nat) x e, c.calls[t]? = some x → x.prog = .crash e → A.tasks[t]? = some (x.op, .dead e)
  state : c.quiet → Shows cfg c.sh A.st

/-- Every call that has returned has returned the result of its last atomic step, and that is what the caller still
sees in it: the slices in the rows of `ListAliases` are compared as well. -/
def RowsShown (c : Config) (A : AConfig) : Prop :=
  ∀ (t : Nat) x r, c.calls[t]? = some x → x.prog = .ret r → A.tasks[t]? = some (x.op, .over (r.view c.sh))

/-- The number of atomic steps a call has left. -/
def Task.left : Task → Nat
  | .call (.put ..) | .call (.drop _) => 2
  | .call (.unAlias _ i) => if i = [] then 1 else 2
  | .call _ => 1
  | .putting .. | .dropping _ | .unAliasing .. => 1
  | .over _ | .dead _ => 0

/-- The atomic steps of a call taken in succession, in the present state, are the call of the sequential specification:
same results, same effect, same panics. -/
def AConfig.succession (cfg : Cfg) (A : AConfig) : Prop :=
  ∀ (op : Op) (a' : ObjState) (k : Task), Alone cfg A.st (.call op) a' k →
    (∀ v, k = .over v → A.st.spec.allows cfg op v ∧ a'.docs = (A.st.spec.next op).docs ∧ a'.aliases = (A.st.spec.next op).aliases) ∧
    (∀ e, k = .dead e → A.st.spec.crashes cfg op e ∧ a' = A.st)

end Visigoth
