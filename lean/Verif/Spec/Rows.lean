import Verif.Spec.Repo
import Verif.Model.Repo
/-!
# What a caller does with the rows of `ListAliases`

`ListAliases` (repos_repo.go:271-281) returns the slices of the alias table themselves.  Writing `r[i] = v` and
`append(r, v)` in the caller's code are the actions `slWrite` and `slAppend` of `Model/Prog.lean`, without any
mutex.
-/
namespace Visigoth

/-- The alias has a slice over the same backing array as `r`. -/
def Shared.shares (s : Shared) (k : Name) (r : SliceRef) : Prop := ∃ q, s.aliases.get k = some q ∧ q.arr = r.arr

/-- The alias table as a caller sees it. -/
def Shared.table (s : Shared) (k : Name) : Option (List Name) := (s.aliases.get k).map s.elems

/-- A caller has obtained these slices from the repository, and the repository is in this state, after calls
and whatever the caller did with the slices. -/
inductive Owns (cfg : Cfg) : Shared → List SliceRef → Prop
  | new : Owns cfg newIndexRepo []
  /-- a completed call -/
  | call {s s' : Shared} {R : List SliceRef} {op : Op} {o : Oracle} {t : Tid} {r : Ret} (h : Owns cfg s R)
      (hr : run cfg o t (op.prog cfg) s = .ok r s') : Owns cfg s' R
  /-- a row of a completed `ListAliases` -/
  | row {s s' : Shared} {R : List SliceRef} {o : Oracle} {t : Tid} {rows : List (Name × SliceRef)} {e : Name × SliceRef}
      (h : Owns cfg s R) (hr : run cfg o t (Op.prog cfg .listAliases) s = .ok (.rows rows) s') (he : e ∈ rows) :
      Owns cfg s' (e.2 :: R)
  /-- `r[:n]` -/
  | reslice {s : Shared} {R : List SliceRef} {r : SliceRef} {n : Nat} {a : List Name} (h : Owns cfg s R) (hr : r ∈ R)
      (ha : s.arrays[r.arr]? = some a) (hn : n ≤ a.length) : Owns cfg s ({ r with len := n } :: R)
  /-- `r[i] = v` -/
  | write {s s' : Shared} {R : List SliceRef} {r : SliceRef} {i : Nat} {v : Name} {o : Oracle} {t : Tid} (h : Owns cfg s R)
      (hr : r ∈ R) (he : exec cfg o t (.slWrite r i v) s = .ok () s') : Owns cfg s' R
  /-- `append(r, v)` -/
  | append {s s' : Shared} {R : List SliceRef} {r r' : SliceRef} {v : Name} {o : Oracle} {t : Tid} (h : Owns cfg s R)
      (hr : r ∈ R) (he : exec cfg o t (.slAppend r v) s = .ok r' s') : Owns cfg s' (r' :: R)

/-- Writing into a row changes nothing for the repository. -/
def WritesHarmless (cfg : Cfg) : Prop :=
  ∀ s R r i v o t s', Owns cfg s R → r ∈ R → exec cfg o t (.slWrite r i v) s = .ok () s' → ∀ k, s'.table k = s.table k

/-- Appending to a row changes nothing for the repository. -/
def AppendsHarmless (cfg : Cfg) : Prop :=
  ∀ s R r v o t r' s', Owns cfg s R → r ∈ R → exec cfg o t (.slAppend r v) s = .ok r' s' → ∀ k, s'.table k = s.table k

/-- From the first state to the second by completed calls other than `Alias` and by callers who write through, or
append to, slices they hold. -/
inductive WithoutAlias (cfg : Cfg) : Shared → Shared → Prop
  | refl {s : Shared} : WithoutAlias cfg s s
  | call {s s1 s' : Shared} {op : Op} {o : Oracle} {t : Tid} {r : Ret} (h : WithoutAlias cfg s s1)
      (hop : ∀ al i, op ≠ .alias al i) (hr : run cfg o t (op.prog cfg) s1 = .ok r s') : WithoutAlias cfg s s'
  | write {s s1 s' : Shared} {r : SliceRef} {i : Nat} {v : Name} {o : Oracle} {t : Tid} (h : WithoutAlias cfg s s1)
      (he : exec cfg o t (.slWrite r i v) s1 = .ok () s') : WithoutAlias cfg s s'
  | append {s s1 s' : Shared} {r r' : SliceRef} {v : Name} {o : Oracle} {t : Tid} (h : WithoutAlias cfg s s1)
      (he : exec cfg o t (.slAppend r v) s1 = .ok r' s') : WithoutAlias cfg s s'

end Visigoth
