import Verif.Model.Index
/-!
# The memory of `LinearSearch`

`intersection` and `LinearSearch` again, with the slices of positions as backing arrays, recording the size of
every array of integers that is allocated.  That the results are those of `Model/Search.lean` is a theorem.

Simplifications: `slices.Copy` (vago, not in the repository) allocates exactly the elements it copies; the slice
of results, which is not made of integers, is not recorded.
-/
namespace Visigoth

/-- A slice: its backing array, whose length is the capacity, and its length. -/
structure ArraySlice (α : Type) where
  arr : List α
  len : Nat
deriving DecidableEq, Repr

/-- The elements of a slice. -/
def ArraySlice.elems {α : Type} (s : ArraySlice α) : List α := s.arr.take s.len

/-- `make([]int, 0, cap)`. -/
def makeSlice {α : Type} [Inhabited α] (cap : Nat) : ArraySlice α := { arr := List.replicate cap default, len := 0 }

/-- `append(s, x)`, and the sizes of the arrays allocated: none if there is room, otherwise one, of a size the
runtime chooses. -/
def ArraySlice.append {α : Type} [Inhabited α] (grow : Nat → Nat) (s : ArraySlice α) (x : α) : ArraySlice α × List Nat :=
  if s.len < s.arr.length then ({ arr := s.arr.set s.len x, len := s.len + 1 }, [])
  else
    let cap := max (grow (s.len + 1)) (s.len + 1)
    ({ arr := s.arr.take s.len ++ x :: List.replicate (cap - (s.len + 1)) default, len := s.len + 1 }, [cap])

section
variable {α : Type} [LT α] [DecidableLT α] [Inhabited α]

/-- The loop of `intersection` (search_linear_search.go:18-29) with its variables `i`, `j` and `r`; `none` is an
index out of range, or more than `fuel` evaluations of the loop condition. -/
def interLoopM (grow : Nat → Nat) (a b : List α) : Nat → Nat → Nat → ArraySlice α → Option (ArraySlice α × List Nat)
  | 0, _, _, _ => none
  | fuel + 1, i, j, r =>
    if i < a.length ∧ j < b.length then
      match a[i]?, b[j]? with
      | some x, some y =>
        if x < y then interLoopM grow a b fuel (i + 1) j r
        else if x > y then interLoopM grow a b fuel i (j + 1) r
        else
          let (r, allocated) := r.append grow x
          (interLoopM grow a b fuel (i + 1) (j + 1) r).map fun (r, more) => (r, allocated ++ more)
      | _, _ => none
    else some (r, [])

/-- `intersection` (search_linear_search.go:12-31): the slice returned and the sizes of the arrays allocated. -/
def intersectionM (grow : Nat → Nat) (a b : List α) : Option (ArraySlice α × List Nat) :=
  let maxLen := a.length
  let maxLen := if b.length > maxLen then b.length else maxLen
  (interLoopM grow a b (a.length + b.length + 1) 0 0 (makeSlice maxLen)).map fun (r, more) => (r, maxLen :: more)

end

/-- The loop over the remaining tokens (search_linear_search.go:70-79); the outer `none` is a panic, the inner one
the early return. -/
def linearLoopM (grow : Nat → Nat) (ix : Indexer) : List Str → List Nat → List Nat → Option (Option (List Nat) × List Nat)
  | [], docs, log => some (some docs, log)
  | t :: ts, docs, log =>
    match ix.indexed t with
    | none => some (none, log)
    | some nextDocs =>
      match intersectionM grow docs nextDocs with
      | none => none
      | some (r, allocated) =>
        let log := log ++ nextDocs.length :: allocated
        match r.elems with
        | [] => some (none, log)
        | d :: ds => linearLoopM grow ix ts (d :: ds) log

/-- `LinearSearch` (search_linear_search.go:58-92): its results and the sizes of the arrays allocated. -/
def linearSearchM (grow : Nat → Nat) (tokens : List Str) (ix : Indexer) : Option (List SearchResult × List Nat) :=
  match tokens with
  | [] => some ([], [])
  | t :: ts =>
    match ix.indexed t with
    | none => some ([], [])
    | some docs =>
      match linearLoopM grow ix ts docs [docs.length] with
      | none => none
      | some (none, log) => some ([], log)
      | some (some docs, log) => (toResults ix tokens.length docs).map fun rs => (rs, log)

end Visigoth
