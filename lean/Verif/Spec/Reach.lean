import Verif.Spec.Conc
/-!
# What concurrent `Put`s do to the index objects
-/
namespace Visigoth

/-- `b` is `a` or a later state of the same index: documents and postings have only been appended. -/
def MemoryIndex.grownTo (a b : MemoryIndex) : Prop :=
  b.name = a.name ∧ a.docs <+: b.docs ∧
    ∀ tok l, a.inverted.get tok = some l → ∃ l', b.inverted.get tok = some l' ∧ l <+: l'

/-- The index object `p` has a document for the request, filed under all its tokens. -/
def Stored (cfg : Cfg) (d : DocRequest) (s : Shared) (p : Ptr) : Prop :=
  ∃ (mi : MemoryIndex) (i : Nat), s.heap[p]? = some mi ∧ mi.docs[i]? = some (newDoc d.id d.raw) ∧
    ∀ tok ∈ cfg.tok d.statement, ∃ l, mi.inverted.get tok = some l ∧ i ∈ l

/-- The objects a name stands for; a listed name without index stands for `none`. -/
def Shared.targets (s : Shared) (n : Name) : Option (List (Option Ptr)) :=
  match s.indices.get n with
  | some p => some [some p]
  | none => (s.aliases.get n).map fun r => (s.elems r).map s.indices.get

/-- At some point of the execution leading to `c`, while call `t` was running, the repository was `s`. -/
def Meanwhile (cfg : Cfg) (t : Tid) (c : Config) (s : Shared) : Prop :=
  ∃ c1 x, ConcReachable cfg c1 ∧ Steps cfg c1 c ∧ c1.calls[t]? = some x ∧ x.running ∧ c1.sh = s

/-- In the execution leading to `c` call `t` has bound `n` to the object `p`. -/
def BoundBy (cfg : Cfg) (t : Tid) (c : Config) (n : Name) (p : Ptr) : Prop :=
  ∃ c1 c2, ConcReachable cfg c1 ∧ TStep cfg t c1 c2 ∧ Steps cfg c2 c ∧ c2.sh.indices.get n = some p

/-- In the execution leading to `c`, after call `t` was made, another call that may bind or unbind the name
`m` has taken it away from the object `p`. -/
def TakenBy (cfg : Cfg) (t : Tid) (c : Config) (m : Name) (p : Ptr) : Prop :=
  ∃ u y c1 c2, u ≠ t ∧ ConcReachable cfg c1 ∧ TStep cfg u c1 c2 ∧ Steps cfg c2 c ∧ t < c1.calls.length ∧
    c1.calls[u]? = some y ∧ (y.op.binds m ∨ y.op.unbinds m) ∧ c1.sh.indices.get m = some p ∧ c2.sh.indices.get m ≠ some p

/-- The name `m` leads to `p`, or another call has taken it away. -/
def KeptOrTaken (cfg : Cfg) (t : Tid) (c : Config) (m : Name) (p : Ptr) : Prop :=
  c.sh.indices.get m = some p ∨ TakenBy cfg t c m p

/-- The names a name stands for: itself if it has an index, else those its alias lists. -/
def Shared.standsFor (s : Shared) (n m : Name) : Prop :=
  match s.indices.get n with
  | some _ => m = n
  | none => ∃ r, s.aliases.get n = some r ∧ m ∈ s.elems r

/-- In the execution leading to `c`, after call `t` was made, another call has taken the name `m` away from
the object `p`: a `Drop` of `m`, a `Rename` from or to `m`, or a `Put` to `m` that had looked `m` up, while
it was running, when `m` stood for nothing. -/
def LostTo (cfg : Cfg) (t : Tid) (c : Config) (m : Name) (p : Ptr) : Prop :=
  ∃ u y c1 c2, u ≠ t ∧ ConcReachable cfg c1 ∧ TStep cfg u c1 c2 ∧ Steps cfg c2 c ∧ t < c1.calls.length ∧
    c1.calls[u]? = some y ∧ c1.sh.indices.get m = some p ∧ c2.sh.indices.get m ≠ some p ∧
    (y.op = .drop m ∨ (∃ k, y.op = .rename m k ∨ y.op = .rename k m) ∨
      ∃ d s, y.op = .put m d ∧ Meanwhile cfg u c1 s ∧ s.targets m = none)

end Visigoth
