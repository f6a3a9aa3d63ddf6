import Verif.Spec.Conc
/-!
# The happens-before order of Go's memory model

An execution makes a sequence of events: a call performs an action.  Two events are ordered when they belong to the same
call, or when one releases a mutex and the other takes it later: a call of `Unlock` is synchronized before every later
return of `Lock` and `RLock` of the mutex, a call of `RUnlock` before every later return of `Lock` (The Go Memory Model,
section Locks).  That a call of `Lock` has announced itself orders nothing.  What a goroutine does before or after a call,
and the goroutines that `Put` and `Search` start, would only add to the order.
-/
namespace Visigoth

/-- A call performs an action. -/
structure Event where
  tid : Tid
  {result : Type}
  act : Act result

/-- An execution, and the actions performed in it. -/
inductive Traced (cfg : Cfg) (c₀ : Config) : List Event → Config → Prop where
  | start : Traced cfg c₀ [] c₀
  | call {es : List Event} {c : Config} (h : Traced cfg c₀ es c) (op : Op) (o : Oracle) :
      Traced cfg c₀ es { c with calls := c.calls ++ [{ op := op, oracle := o, prog := op.prog cfg }] }
  | act {es : List Event} {s s' : Shared} {calls : List Thread} {t : Tid} {op : Op} {o : Oracle} {β : Type} {a : Act β}
      {k : β → Prog Ret} {b : β} (h : Traced cfg c₀ es { sh := s, calls := calls })
      (hc : calls[t]? = some { op := op, oracle := o, prog := .act a k }) (he : exec cfg o t a s = .ok b s') :
      Traced cfg c₀ (es ++ [{ tid := t, act := a }])
        { sh := s', calls := calls.set t { op := op, oracle := o, prog := k b } }
  | crash {es : List Event} {s : Shared} {calls : List Thread} {t : Tid} {op : Op} {o : Oracle} {β : Type} {a : Act β}
      {k : β → Prog Ret} {e : Crash} (h : Traced cfg c₀ es { sh := s, calls := calls })
      (hc : calls[t]? = some { op := op, oracle := o, prog := .act a k }) (he : exec cfg o t a s = .crash e) :
      Traced cfg c₀ (es ++ [{ tid := t, act := a }])
        { sh := s, calls := calls.set t { op := op, oracle := o, prog := .crash e } }

/-- The event accesses part `l`. -/
def Event.uses (e : Event) (l : Loc) : Prop := e.act.reads = some l ∨ e.act.writes = some l

/-- Two calls access the same part, one of them to write it. -/
def Event.conflicts (e e' : Event) (l : Loc) : Prop :=
  e.tid ≠ e'.tid ∧ e.uses l ∧ e'.uses l ∧ (e.act.writes = some l ∨ e'.act.writes = some l)

/-- The mutex released, and whether it was held exclusively. -/
def Act.releases {β : Type} : Act β → Option (Mu × Bool)
  | .unlock m => some (m, true)
  | .runlock m => some (m, false)
  | _ => none

/-- The mutex taken, and whether it is exclusively. -/
def Act.takes {β : Type} : Act β → Option (Mu × Bool)
  | .acquire m => some (m, true)
  | .rlock m => some (m, false)
  | _ => none

/-- The event releases a mutex that the other one takes; not both are read locks. -/
def Event.syncs (e e' : Event) : Prop :=
  ∃ m x y, e.act.releases = some (m, x) ∧ e'.act.takes = some (m, y) ∧ (x = true ∨ y = true)

/-- The event at position `i` happens before the one at position `j`. -/
inductive HB (es : List Event) : Nat → Nat → Prop where
  | po {i j : Nat} {e e' : Event} (hij : i < j) (hi : es[i]? = some e) (hj : es[j]? = some e') (h : e.tid = e'.tid) :
      HB es i j
  | sync {i j : Nat} {e e' : Event} (hij : i < j) (hi : es[i]? = some e) (hj : es[j]? = some e') (h : e.syncs e') :
      HB es i j
  | trans {i j k : Nat} (h : HB es i j) (h' : HB es j k) : HB es i k

/-- Conflicting accesses are ordered. -/
def Ordered (es : List Event) : Prop :=
  ∀ i j e e' l, i < j → es[i]? = some e → es[j]? = some e' → e.conflicts e' l → HB es i j

end Visigoth
