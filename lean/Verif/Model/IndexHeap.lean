import Verif.Model.Prog
/-!
# The in-memory index with explicit backing arrays

`Model/Index.lean` treats the posting lists of an index as values.  Here they are slices over a heap
of `[]int` backing arrays shared with the caller, so that aliasing between the index and the slices
`Indexed` hands out is visible.  Documents are copied by value in Go (`Document` returns a struct), so
they stay values.
-/
namespace Visigoth

/-- `[]int` contents, given the backing arrays. -/
def intsOf (A : List (List Nat)) (r : SliceRef) : List Nat := ((A[r.arr]?).getD []).take r.len

/-- A new backing array with the given elements; `cap` is the capacity the runtime chooses. -/
def allocInts (cap : Nat → Nat) (A : List (List Nat)) (l : List Nat) : List (List Nat) × SliceRef :=
  (A ++ [l ++ List.replicate (cap l.length - l.length) 0], { arr := A.length, len := l.length })

/-- `append(r, v)`: in place when the capacity allows, otherwise into a new array. -/
def appendInts (cap : Nat → Nat) (A : List (List Nat)) (r : SliceRef) (v : Nat) :
    List (List Nat) × SliceRef :=
  match A[r.arr]? with
  | some a =>
    if r.len < a.length then (A.set r.arr (a.set r.len v), { r with len := r.len + 1 })
    else allocInts cap A (a.take r.len ++ [v])
  | none => allocInts cap A [v]

/-- `MemoryIndex` (index_memory_index.go:11-18) with slices. -/
structure HeapIndex where
  docs : List Doc := []
  arrays : List (List Nat) := []
  inverted : GoMap Str SliceRef := []
deriving DecidableEq

/-- `MemoryIndex.Indexed` (index_memory_index.go:24-27): `slices.Copy` of the vago library copies the
elements into a new array (for a nil slice: an empty one). -/
def HeapIndex.indexed (cap : Nat → Nat) (x : HeapIndex) (key : Str) : HeapIndex × SliceRef :=
  let data := match x.inverted.get key with
    | some r => intsOf x.arrays r
    | none => []
  let (A, r) := allocInts cap x.arrays data
  ({ x with arrays := A }, r)

/-- One iteration of the token loop of `Put` (index_memory_index.go:50-58). -/
def HeapIndex.addPosting (cap : Nat → Nat) (next : Nat) (x : HeapIndex) (tok : Str) : HeapIndex :=
  match x.inverted.get tok with
  | none =>
    let (A, r) := allocInts cap x.arrays [next]
    { x with arrays := A, inverted := GoMap.set x.inverted tok r }
  | some indexedDocs =>
    if next ∈ intsOf x.arrays indexedDocs then x
    else
      let (A, r) := appendInts cap x.arrays indexedDocs next
      { x with arrays := A, inverted := GoMap.set x.inverted tok r }

/-- `MemoryIndex.Put` (index_memory_index.go:44-60). -/
def HeapIndex.put (tok : Tokenizer) (cap : Nat → Nat) (x : HeapIndex) (payload : DocRequest) :
    HeapIndex :=
  let tokens := tok payload.statement
  let next := x.docs.length
  tokens.foldl (HeapIndex.addPosting cap next)
    { x with docs := x.docs ++ [newDoc payload.id payload.raw] }

/-- What a caller that holds slices returned by `Indexed` can do.  Slices the caller holds are
numbered in the order obtained. -/
inductive ClientAct where
  /-- `index.Put(r)` -/
  | put (cap : Nat → Nat) (r : DocRequest)
  /-- `s := index.Indexed(key)` -/
  | indexed (cap : Nat → Nat) (key : Str)
  /-- a write through slice `h` (or through a reslice of it) anywhere in its backing array -/
  | write (h : Nat) (i : Nat) (v : Nat)
  /-- `t := append(s, v)` for slice `h` -/
  | append (cap : Nat → Nat) (h : Nat) (v : Nat)

/-- The index and the slices the caller holds, each with the number of the `Indexed` call it comes
from (ghost). -/
structure World where
  index : HeapIndex := {}
  slices : List (SliceRef × Nat) := []
  calls : Nat := 0

/-- Effect of an action; actions through a slice the caller does not hold do nothing. -/
def World.step (tok : Tokenizer) (w : World) : ClientAct → World
  | .put cap r => { w with index := w.index.put tok cap r }
  | .indexed cap key =>
    let (x, s) := w.index.indexed cap key
    { index := x, slices := w.slices ++ [(s, w.calls)], calls := w.calls + 1 }
  | .write h i v =>
    match w.slices[h]? with
    | none => w
    | some (s, _) =>
      match w.index.arrays[s.arr]? with
      | none => w
      | some a => { w with index := { w.index with arrays := w.index.arrays.set s.arr (a.set i v) } }
  | .append cap h v =>
    match w.slices[h]? with
    | none => w
    | some (s, call) =>
      let (A, t) := appendInts cap w.index.arrays s v
      { w with index := { w.index with arrays := A }, slices := w.slices ++ [(t, call)] }

/-- A history of actions on a new index. -/
def World.run (tok : Tokenizer) (acts : List ClientAct) : World := acts.foldl (World.step tok) {}

/-- The contents of the caller's slice number `h`. -/
def World.contents (w : World) (h : Nat) : Option (List Nat) :=
  (w.slices[h]?).map fun e => intsOf w.index.arrays e.1

end Visigoth
