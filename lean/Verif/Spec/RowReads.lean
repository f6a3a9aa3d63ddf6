import Verif.Spec.Fine
/-!
# Reading the rows of `ListAliases` while calls run
-/
namespace Visigoth

/-- The cell of a backing array that an action writes in a state: the array and the position in it.  A new array
is not counted: nothing else can access it yet. -/
def Act.cell {β : Type} (s : Shared) : Act β → Option (Nat × Nat)
  | .slWrite r i _ => some (r.arr, i)
  | .slAppend r _ =>
    match s.arrays[r.arr]? with
    | some x => if r.len < x.length then some (r.arr, r.len) else none
    | none => none
  | _ => none

/-- The cell that the next action of a call writes. -/
def Thread.cell (x : Thread) (s : Shared) : Option (Nat × Nat) :=
  match x.prog with
  | .act a _ => a.cell s
  | _ => none

/-- The cell that an agent of a call is about to write. -/
def FThread.cell (x : FThread) (s : Shared) : Agent → Option (Nat × Nat)
  | none =>
    match x.st with
    | .run (.act a _) => a.cell s
    | _ => none
  | some i =>
    match x.st with
    | .putting gs _ =>
      match gs[i]? with
      | some (.act a _) => a.cell s
      | _ => none
    | _ => none

/-- The cells that the caller reads who goes through the rows. -/
def RowCell (rows : List (Name × SliceRef)) (cell : Nat × Nat) : Prop :=
  ∃ e ∈ rows, cell.1 = e.2.arr ∧ cell.2 < e.2.len

/-- A caller who goes through the rows that call `t` has returned races with call `u`. -/
def Config.rowRace (c : Config) (t u : Tid) : Prop :=
  ∃ x y rows cell, c.calls[t]? = some x ∧ x.op = .listAliases ∧ x.prog = .ret (.rows rows) ∧ c.calls[u]? = some y ∧
    y.cell c.sh = some cell ∧ RowCell rows cell

/-- The same with interleaved goroutines; `g` is the agent of call `u`. -/
def FConfig.rowRace (c : FConfig) (t u : Tid) (g : Agent) : Prop :=
  ∃ x y rows cell, c.calls[t]? = some x ∧ x.op = .listAliases ∧ x.status = .returned (.rows rows) ∧ c.calls[u]? = some y ∧
    y.cell c.sh g = some cell ∧ RowCell rows cell

end Visigoth
