import Verif.Model.Index
/-!
# Programs over the shared state of an `IndexRepo`

The methods of `IndexRepo` (repos_repo.go) are written once, as programs over atomic actions on the
shared state: operations on the two `sync.RWMutex`es, reads and writes of the two maps, of the
backing arrays of the alias slices, and of the indices.  Two semantics are given to the same
programs: `run` (this file: one call running alone) and the interleaving semantics of
`Model/Conc.lean`.
-/
namespace Visigoth

abbrev Name := Str
/-- Identifier of a call (ghost: Go's mutexes do not record their holders). -/
abbrev Tid := Nat
/-- A `*MemoryIndex`: position in the heap of indices. -/
abbrev Ptr := Nat

/-- The two mutexes of `IndexRepo` (repos_repo.go:37,39). -/
inductive Mu | indices | aliases
deriving DecidableEq, Repr

/-- A `sync.RWMutex`.  `readers` are the holders of read locks; `writer` is the call that has
announced a write lock (it holds it once `readers` is empty). As in Go, an announced writer keeps new
readers out. -/
structure RW where
  readers : List Tid := []
  writer : Option Tid := none
deriving DecidableEq, Repr

/-- A `[]string` value: backing array and length.  The capacity is the length of the array. -/
structure SliceRef where
  arr : Nat
  len : Nat
deriving DecidableEq, Repr

/-- The shared state: `IndexRepo` (repos_repo.go:35-42) with explicit heaps for the index objects and
the backing arrays of the `[]string` values of `aliases`. -/
structure Shared where
  heap : List MemoryIndex := []
  arrays : List (List Name) := []
  indices : GoMap Name Ptr := []
  aliases : GoMap Name SliceRef := []
  imu : RW := {}
  amu : RW := {}
deriving DecidableEq, Repr

/-- `NewIndexRepo` (repos_repo.go:318-326). -/
def newIndexRepo : Shared := {}

def Shared.mu (s : Shared) : Mu → RW
  | .indices => s.imu
  | .aliases => s.amu

def Shared.setMu (s : Shared) : Mu → RW → Shared
  | .indices, l => { s with imu := l }
  | .aliases, l => { s with amu := l }

/-- The elements of a slice. -/
def Shared.elems (s : Shared) (r : SliceRef) : List Name := ((s.arrays[r.arr]?).getD []).take r.len

/-- What the package is configured with: the tokenizer given to the index builder
(`NewMemoryIndexBuilder`, index_memory_index.go:75-79) and the copy function of the vago library. -/
structure Cfg where
  tok : Tokenizer
  cp : CopyFn

/-- Choices of the Go runtime during one call: the order in which the map of indices or of aliases is
iterated over, the order in which the posting map of each index object is iterated over, the completion
order of goroutines, the capacity of a newly allocated backing array. -/
structure Oracle where
  keyOrder : List Name → List Name
  tokenOrder : Ptr → List Str → List Str
  schedule : List Ptr → List Ptr
  capacity : Nat → Nat

/-- Any permutation the runtime may choose. -/
def choosePerm {α : Type} [DecidableEq α] (f : List α → List α) (l : List α) : List α :=
  if (f l).isPerm l then f l else l

/-- Atomic actions. -/
inductive Act : Type → Type where
  /-- `mu.RLock()` -/
  | rlock (m : Mu) : Act Unit
  /-- `mu.RUnlock()` -/
  | runlock (m : Mu) : Act Unit
  /-- first half of `mu.Lock()`: exclude other writers and new readers -/
  | announce (m : Mu) : Act Unit
  /-- second half of `mu.Lock()`: wait for the active readers to leave -/
  | acquire (m : Mu) : Act Unit
  /-- `mu.Unlock()` -/
  | unlock (m : Mu) : Act Unit
  /-- `h.indices[n]` -/
  | idxGet (n : Name) : Act (Option Ptr)
  /-- `h.indices[n] = p` -/
  | idxSet (n : Name) (p : Ptr) : Act Unit
  /-- `delete(h.indices, n)` -/
  | idxDel (n : Name) : Act Unit
  /-- the keys of `range h.indices`, in the order the runtime chooses -/
  | idxKeys : Act (List Name)
  /-- `h.aliases[n]` -/
  | alGet (n : Name) : Act (Option SliceRef)
  /-- `h.aliases[n] = r` -/
  | alSet (n : Name) (r : SliceRef) : Act Unit
  /-- `delete(h.aliases, n)` -/
  | alDel (n : Name) : Act Unit
  /-- the keys of `range h.aliases`, in the order the runtime chooses -/
  | alKeys : Act (List Name)
  /-- `r[i]` -/
  | slRead (r : SliceRef) (i : Nat) : Act Name
  /-- `r[i] = v` -/
  | slWrite (r : SliceRef) (i : Nat) (v : Name) : Act Unit
  /-- `append(r, v)`: in place when the capacity allows, otherwise into a new array -/
  | slAppend (r : SliceRef) (v : Name) : Act SliceRef
  /-- a new slice with the given elements -/
  | slNew (l : List Name) : Act SliceRef
  /-- `h.indexBuilder(name)` -/
  | newIndex (n : Name) : Act Ptr
  /-- `next := len(mi.Docs); mi.Docs = append(mi.Docs, d)` -/
  | docAppend (p : Ptr) (d : Doc) : Act Nat
  /-- one iteration of the token loop of `MemoryIndex.Put` -/
  | postAdd (p : Ptr) (tok : Str) (next : Nat) : Act Unit
  /-- `idx.Search(terms, engine)`, read only -/
  | evalEngine (p : Ptr) (terms : Str) (e : Engine) : Act (Option (List SearchResult))
  /-- `idx.String()`, read only -/
  | render (p : Ptr) : Act Str
  /-- completion order of the goroutines started for the given indices -/
  | schedule (ps : List Ptr) : Act (List Ptr)

/-- Why a call does not end normally. -/
inductive Crash
  /-- method call on a nil `Index` -/
  | nilIndex
  /-- two goroutines of one call write the same index without synchronisation -/
  | race
  /-- an engine asked for a document out of range -/
  | engine
  /-- a mutex operation the runtime rejects, or an invalid reference -/
  | invalid
deriving DecidableEq, Repr

/-- Effect of an action. -/
inductive Exec (β : Type) where
  | ok (b : β) (s : Shared)
  | blocked
  | crash (c : Crash)

/-- Semantics of the actions, for call `t`. -/
def exec (cfg : Cfg) (o : Oracle) (t : Tid) : {β : Type} → Act β → Shared → Exec β
  | _, .rlock m, s =>
    if (s.mu m).writer = none then
      .ok () (s.setMu m { s.mu m with readers := t :: (s.mu m).readers })
    else .blocked
  | _, .runlock m, s =>
    if t ∈ (s.mu m).readers then
      .ok () (s.setMu m { s.mu m with readers := (s.mu m).readers.erase t })
    else .crash .invalid
  | _, .announce m, s =>
    if (s.mu m).writer = none then .ok () (s.setMu m { s.mu m with writer := some t })
    else .blocked
  | _, .acquire m, s =>
    if (s.mu m).writer = some t then
      if (s.mu m).readers = [] then .ok () s else .blocked
    else .crash .invalid
  | _, .unlock m, s =>
    if (s.mu m).writer = some t then .ok () (s.setMu m { s.mu m with writer := none })
    else .crash .invalid
  | _, .idxGet n, s => .ok (s.indices.get n) s
  | _, .idxSet n p, s => .ok () { s with indices := s.indices.set n p }
  | _, .idxDel n, s => .ok () { s with indices := s.indices.delete n }
  | _, .idxKeys, s => .ok (choosePerm o.keyOrder s.indices.keys) s
  | _, .alGet n, s => .ok (s.aliases.get n) s
  | _, .alSet n r, s => .ok () { s with aliases := s.aliases.set n r }
  | _, .alDel n, s => .ok () { s with aliases := s.aliases.delete n }
  | _, .alKeys, s => .ok (choosePerm o.keyOrder s.aliases.keys) s
  | _, .slRead r i, s =>
    match (s.elems r)[i]? with
    | some v => .ok v s
    | none => .crash .invalid
  | _, .slWrite r i v, s =>
    match s.arrays[r.arr]? with
    | some a =>
      if i < r.len then .ok () { s with arrays := s.arrays.set r.arr (a.set i v) }
      else .crash .invalid
    | none => .crash .invalid
  | _, .slAppend r v, s =>
    match s.arrays[r.arr]? with
    | none => .crash .invalid
    | some a =>
      if r.len < a.length then
        .ok { r with len := r.len + 1 } { s with arrays := s.arrays.set r.arr (a.set r.len v) }
      else
        .ok { arr := s.arrays.length, len := r.len + 1 }
          { s with arrays := s.arrays ++
              [a.take r.len ++ v :: List.replicate (o.capacity (r.len + 1) - (r.len + 1)) []] }
  | _, .slNew l, s =>
    .ok { arr := s.arrays.length, len := l.length }
      { s with arrays := s.arrays ++ [l ++ List.replicate (o.capacity l.length - l.length) []] }
  | _, .newIndex n, s => .ok s.heap.length { s with heap := s.heap ++ [newMemoryIndex n] }
  | _, .docAppend p d, s =>
    match s.heap[p]? with
    | some mi => .ok mi.docs.length { s with heap := s.heap.set p { mi with docs := mi.docs ++ [d] } }
    | none => .crash .invalid
  | _, .postAdd p tok next, s =>
    match s.heap[p]? with
    | some mi =>
      .ok () { s with heap := s.heap.set p { mi with inverted := addPosting next mi.inverted tok } }
    | none => .crash .invalid
  | _, .evalEngine p terms e, s =>
    match s.heap[p]? with
    | some mi => .ok (mi.search cfg.cp cfg.tok terms e) s
    | none => .crash .invalid
  | _, .render p, s =>
    match s.heap[p]? with
    | some mi => .ok (mi.string (choosePerm (o.tokenOrder p))) s
    | none => .crash .invalid
  | _, .schedule ps, s => .ok (choosePerm o.schedule ps) s

/-- Programs: trees of actions. -/
inductive Prog (α : Type) : Type 1 where
  | ret (a : α)
  | act {β : Type} (a : Act β) (k : β → Prog α)
  | crash (c : Crash)

namespace Prog

def bind {α β : Type} : Prog α → (α → Prog β) → Prog β
  | .ret a, f => f a
  | .act a k, f => .act a fun b => (k b).bind f
  | .crash c, _ => .crash c

instance : Monad Prog where
  pure := Prog.ret
  bind := Prog.bind

end Prog

/-- A single action as a program. -/
def perform {β : Type} (a : Act β) : Prog β := .act a .ret

/-- Result of a call that runs alone. -/
inductive Outcome (α : Type) where
  | ok (a : α) (s : Shared)
  /-- the call waits for a mutex that nobody will release -/
  | hang (s : Shared)
  | crash (c : Crash)
deriving DecidableEq

/-- Sequential semantics: the program runs with no other call in progress. -/
def run {α : Type} (cfg : Cfg) (o : Oracle) (t : Tid) : Prog α → Shared → Outcome α
  | .ret a, s => .ok a s
  | .crash c, _ => .crash c
  | .act a k, s =>
    match exec cfg o t a s with
    | .ok b s' => run cfg o t (k b) s'
    | .blocked => .hang s
    | .crash c => .crash c

end Visigoth
