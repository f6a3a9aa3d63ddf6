import Verif.Spec.Reach
/-!
# The rows of `ListAliases`
-/
namespace Visigoth

/-- The rows are the alias table of the repository, every alias once. -/
def RowsOf (rows : List (Name × SliceRef)) (s : Shared) : Prop :=
  (rows.map (·.1)).Perm s.aliases.keys ∧ ∀ e ∈ rows, s.aliases.get e.1 = some e.2

/-- The call is under way in `c` or comes between `c` and `c'`. -/
def Config.since (c c' : Config) (op : Op) : Prop :=
  ∃ (u : Tid) (x' : Thread), c'.calls[u]? = some x' ∧ x'.op = op ∧ ∀ x, c.calls[u]? = some x → x.running

/-- `w` is `v` after renames by some of the given calls. -/
inductive RenamedTo (ops : Op → Prop) : Name → Name → Prop
  | refl (v : Name) : RenamedTo ops v v
  | rename {v old new : Name} (h : RenamedTo ops v old) (hop : ops (.rename old new)) : RenamedTo ops v new

/-- `l'` is `l` with each entry renamed by some of the given calls, or left alone. -/
def EntriesRenamed (ops : Op → Prop) (l l' : List Name) : Prop :=
  l'.length = l.length ∧ ∀ (j : Nat) v w, l[j]? = some v → l'[j]? = some w → RenamedTo ops v w

/-- What a step of an execution may do to a slice: nothing, or a running `Rename old new` replaces one `old`
by `new`. -/
def StepRewrites (c c' : Config) (q : SliceRef) : Prop :=
  c'.sh.elems q = c.sh.elems q ∨
    ∃ (u : Tid) (x : Thread) (old new : Name) (i : Nat), c.calls[u]? = some x ∧ x.running ∧ x.op = .rename old new ∧
      (c.sh.elems q)[i]? = some old ∧ c'.sh.elems q = (c.sh.elems q).set i new

end Visigoth
