import Verif.Spec.Atomic
import Verif.Spec.Fine
/-!
# Executions of atomic steps that calls can really take

`Spec/Atomic.lean` says in which atomic steps calls take effect.  It does not know about mutexes.  A call of
`UnAlias` that does not find its index or its alias keeps a mutex, and a call that panics may keep one too;
what the other calls do afterwards is then more than they really can.  An orderly execution has no such steps.
-/
namespace Visigoth

/-- The next atomic step is one of those after which `UnAlias` keeps a mutex. -/
def ObjState.wedges (a : ObjState) : Task → Prop
  | .call (.unAlias _ i) => i ≠ [] ∧ a.index i = none
  | .unAliasing al _ => a.aliases al = none
  | _ => False

/-- An atomic step, other than that of `String`, whose text shows labels that the specification does not have. -/
inductive TextFree (cfg : Cfg) : AConfig → AConfig → Prop where
  | run {a a' : ObjState} {ts : List (Op × Task)} (t : Tid) {op : Op} {k k' : Task} (h : ts[t]? = some (op, k))
      (hs : Atomic cfg a k a' k') (hk : k ≠ .call .string) : TextFree cfg ⟨a, ts⟩ ⟨a', ts.set t (op, k')⟩
  | invoke (c : AConfig) (op : Op) : TextFree cfg c ⟨c.st, c.tasks ++ [(op, .call op)]⟩

/-- An atomic step, other than that of `String`, after which no mutex is kept. -/
inductive OrderlyStep (cfg : Cfg) : AConfig → AConfig → Prop where
  | run {a a' : ObjState} {ts : List (Op × Task)} (t : Tid) {op : Op} {k k' : Task} (h : ts[t]? = some (op, k))
      (hs : Atomic cfg a k a' k') (hk : k ≠ .call .string) (hw : ¬ a.wedges k) (hd : ∀ e, k' ≠ .dead e) :
      OrderlyStep cfg ⟨a, ts⟩ ⟨a', ts.set t (op, k')⟩
  | invoke (c : AConfig) (op : Op) : OrderlyStep cfg c ⟨c.st, c.tasks ++ [(op, .call op)]⟩

inductive OrderlyRun (cfg : Cfg) : AConfig → AConfig → Prop where
  | refl (c : AConfig) : OrderlyRun cfg c c
  | tail {c c' c'' : AConfig} (h : OrderlyRun cfg c c') (hs : OrderlyStep cfg c' c'') : OrderlyRun cfg c c''

/-- A call with this task looks like this from outside. -/
def Task.looks : Task → Status → Prop
  | .over v, .returned r => r.agrees v
  | .dead e, .crashed e' => e = e'
  | .over _, _ | .dead _, _ => False
  | _, .running => True
  | _, _ => False

/-- Calls have got as far as those of an execution of atomic steps: the same calls have been made, the same ones have
returned or panicked, with the same results, and the repository is in the same state.  `l` is what the calls look like,
`s` the repository. -/
structure Realises (cfg : Cfg) (l : List (Op × Status)) (s : Shared) (A : AConfig) : Prop where
  size : l.length = A.tasks.length
  call : ∀ (t : Nat) op k, A.tasks[t]? = some (op, k) → ∃ st, l[t]? = some (op, st) ∧ k.looks st
  state : Shows cfg s A.st

/-- What callers see in what they were given is the result of the last atomic step, the slices in the rows of
`ListAliases` included. -/
def SeenAll (l : List (Op × Status)) (s : Shared) (A : AConfig) : Prop :=
  ∀ (t : Nat) op v, A.tasks[t]? = some (op, .over v) → ∃ r, l[t]? = some (op, .returned r) ∧ r.view s = v

/-- No call is one of `Rename`. -/
def AConfig.noRename (A : AConfig) : Prop := ∀ x ∈ A.tasks, x.1.isRename = false

/-- The calls are over and have returned the values given; callers still see them. -/
def Results (l : List (Op × Status)) (s : Shared) (vs : List (Op × SRet)) : Prop :=
  l.length = vs.length ∧ ∀ (t : Nat) op v, vs[t]? = some (op, v) → ∃ r, l[t]? = some (op, .returned r) ∧ r.view s = v

/-- The same; the slices in the rows of `ListAliases` are not compared. -/
def ResultsOnly (l : List (Op × Status)) (vs : List (Op × SRet)) : Prop :=
  l.length = vs.length ∧ ∀ (t : Nat) op v, vs[t]? = some (op, v) → ∃ r, l[t]? = some (op, .returned r) ∧ r.agrees v

/-- The same value, except for the slices in the rows of `ListAliases`. -/
def SRet.roughly : SRet → SRet → Prop
  | .rows l, .rows l' => l.map (·.1) = l'.map (·.1)
  | v, w => v = w

/-- No call of `String`, and no call of `UnAlias` that kept a mutex: those are the ones that were given an index and
returned false. -/
def KeptNothing (vs : List (Op × SRet)) : Prop :=
  ∀ x ∈ vs, x.1 ≠ .string ∧ ∀ al i, x.1 = .unAlias al i → i ≠ [] → x.2 ≠ .bool false

end Visigoth
