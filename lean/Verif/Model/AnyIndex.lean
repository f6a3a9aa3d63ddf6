import Verif.Model.Conc
/-!
# A repository of indexes of the caller's own  (`index_index.go`, `repos_repo.go`)

`NewIndexRepo` takes a `Builder` (index_index.go:14, repos_repo.go:318-326), and the repository uses indexes
through the interface `Index` (index_index.go:9-12) only.  Here the methods of `IndexRepo` are given any
implementation of it.  Methods that call no method of an index are those of `Model/Repo.lean`; `Put` and
`Search` are written again.

Simplifications: a call of `Index.Put` or `Index.Search` is one action (`C101_exclusive` shows which calls
overlap); `Search` does not change the index; `Put` does not panic; the builder does not return nil and has
no effects; none of them calls the repository.  The goroutines of `Put` and `Search` run one after the other,
as in `Model/Repo.lean`.  `IndexRepo.String` is left out: `String` is not part of `Index`, `fmt.Sprintln`
prints whatever it is given.
-/
namespace Visigoth

/-- An implementation of `Index` and its `Builder` (index_index.go:9-14): what the builder makes for a name,
what the receiver of `Put` is afterwards, and what `Search` returns (`none`: it panics).  The `Index` that
`Put` returns is missing here, as the repository ignores it (repos_repo.go:224, 232). -/
structure IndexImpl (σ : Type) where
  make : Name → σ
  put : σ → DocRequest → σ
  search : σ → Str → Engine → Option (List SearchResult)

/-- `NewMemoryIndexBuilder` (index_memory_index.go:75-79) and the methods of `MemoryIndex`
(index_memory_index.go:44-64). -/
def memoryImpl (cfg : Cfg) : IndexImpl MemoryIndex where
  make := newMemoryIndex
  put := MemoryIndex.put cfg.tok
  search := fun mi terms e => mi.search cfg.cp cfg.tok terms e

/-- The action is about names and mutexes, not about index objects. -/
def Act.onNames {β : Type} : Act β → Bool
  | .newIndex _ | .docAppend .. | .postAdd .. | .evalEngine .. | .render _ => false
  | _ => true

/-- The actions of `Model/Prog.lean` on names and mutexes, and the calls of the builder
(repos_repo.go:222), of `Index.Put` (repos_repo.go:224, 232) and of `Index.Search` (repos_repo.go:192, 206). -/
inductive IAct : Type → Type 1 where
  | plain {β : Type} (a : Act β) : IAct β
  | make (n : Name) : IAct Ptr
  | put (p : Ptr) (d : DocRequest) : IAct Unit
  | search (p : Ptr) (terms : Str) (e : Engine) : IAct (Option (List SearchResult))

/-- The shared state (repos_repo.go:35-42): `sh` with an unused heap, and the index objects. -/
structure IShared (σ : Type) where
  sh : Shared
  objs : List σ

inductive IExec (σ β : Type) where
  | ok (b : β) (s : IShared σ)
  | blocked
  | crash (c : Crash)

/-- A configuration for actions that do not use it. -/
def noCfg : Cfg := { tok := fun _ => [], cp := { copy := id, contents := fun _ => rfl } }

/-- Semantics of the actions. -/
def iexec {σ : Type} (I : IndexImpl σ) (o : Oracle) (t : Tid) : {β : Type} → IAct β → IShared σ → IExec σ β
  | _, .plain a, s =>
    if a.onNames then
      match exec noCfg o t a s.sh with
      | .ok b sh => .ok b { s with sh := sh }
      | .blocked => .blocked
      | .crash c => .crash c
    else .crash .invalid
  | _, .make n, s => .ok s.objs.length { s with objs := s.objs ++ [I.make n] }
  | _, .put p d, s =>
    match s.objs[p]? with
    | some x => .ok () { s with objs := s.objs.set p (I.put x d) }
    | none => .crash .invalid
  | _, .search p terms e, s =>
    match s.objs[p]? with
    | some x => .ok (I.search x terms e) s
    | none => .crash .invalid

inductive IProg (α : Type) : Type 1 where
  | ret (a : α)
  | act {β : Type} (a : IAct β) (k : β → IProg α)
  | crash (c : Crash)

namespace IProg

def bind {α β : Type} : IProg α → (α → IProg β) → IProg β
  | .ret a, f => f a
  | .act a k, f => .act a fun b => (k b).bind f
  | .crash c, _ => .crash c

instance : Monad IProg where
  pure := IProg.ret
  bind := IProg.bind

end IProg

def iperform {β : Type} (a : IAct β) : IProg β := .act a .ret

/-- A method that calls no method of an index. -/
def Prog.lift {α : Type} : Prog α → IProg α
  | .ret a => .ret a
  | .crash c => .crash c
  | .act a k => .act (.plain a) fun b => (k b).lift

namespace IRepo

/-- `indices[0].Search(terms, engine)` and `idx.Search` in a goroutine (repos_repo.go:192, 206). -/
def searchIndex (p : Ptr) (terms : Str) (engine : Engine) : IProg (List SearchResult) := do
  match ← iperform (.search p terms engine) with
  | some sr => return sr
  | none => .crash .engine

/-- The goroutines of `Search` (repos_repo.go:203-211), in the order of their completion. -/
def searchAll (terms : Str) (engine : Engine) : List Ptr → IProg (List SearchResult)
  | [] => return []
  | p :: ps => do
    let sr ← searchIndex p terms engine
    let rest ← searchAll terms engine ps
    return sr ++ rest

/-- repos_repo.go:191-213. -/
def searchTargets (indices : List (Option Ptr)) (terms : Str) (engine : Engine) :
    IProg (List SearchResult) :=
  match Repo.nonNil indices with
  | none => .crash .nilIndex
  | some [p] => searchIndex p terms engine
  | some ps => do
    let ps ← iperform (.plain (.schedule ps))
    searchAll terms engine ps

/-- `IndexRepo.Search` (repos_repo.go:162-214). -/
def search (indexName : Name) (terms : Str) (engine : Engine) :
    IProg (Option (List SearchResult)) := do
  iperform (.plain (.rlock .indices))
  match ← iperform (.plain (.idxGet indexName)) with
  | some i =>
    let res ← searchTargets [some i] terms engine
    iperform (.plain (.runlock .indices))
    return some res
  | none =>
    iperform (.plain (.rlock .aliases))
    match ← iperform (.plain (.alGet indexName)) with
    | none =>
      iperform (.plain (.runlock .aliases))
      iperform (.plain (.runlock .indices))
      return none
    | some aliasedIndices =>
      let indices ← (Repo.resolveFrom aliasedIndices 0 aliasedIndices.len).lift
      iperform (.plain (.runlock .aliases))
      let res ← searchTargets indices terms engine
      iperform (.plain (.runlock .indices))
      return some res

/-- The goroutines of `Put` (repos_repo.go:230-235), in the order of their completion. -/
def putAll (doc : DocRequest) : List Ptr → IProg Unit
  | [] => return ()
  | p :: ps => do
    iperform (.put p doc)
    putAll doc ps

/-- repos_repo.go:228-236. -/
def putTargets (indices : List (Option Ptr)) (doc : DocRequest) : IProg Unit :=
  match Repo.nonNil indices with
  | none => .crash .nilIndex
  | some ps =>
    if ps.Nodup then do
      let ps ← iperform (.plain (.schedule ps))
      putAll doc ps
    else .crash .race

/-- `IndexRepo.Put` (repos_repo.go:216-238). -/
def put (indexName : Name) (doc : DocRequest) : IProg Unit := do
  let r ← (Repo.getIndices indexName).lift
  (Repo.lock .indices).lift
  match r with
  | none =>
    let p ← iperform (.make indexName)
    iperform (.plain (.idxSet indexName p))
    iperform (.put p doc)
    iperform (.plain (.unlock .indices))
  | some indices =>
    putTargets indices doc
    iperform (.plain (.unlock .indices))

end IRepo

/-- The program of a call of the `Repo` interface (repos_repo.go:12-23). -/
def Op.iprog : Op → IProg Ret
  | .put n d => do
    IRepo.put n d
    return .unit
  | .search n ts e => do
    match ← IRepo.search n ts e with
    | some r => return .results r
    | none => return .noIndex
  | op => (op.prog noCfg).lift

structure IThread where
  op : Op
  oracle : Oracle
  prog : IProg Ret

structure IConfig (σ : Type) where
  sh : IShared σ
  calls : List IThread

/-- `NewIndexRepo(builder)` (repos_repo.go:318-326), no call yet. -/
def IConfig.init (σ : Type) : IConfig σ := { sh := { sh := newIndexRepo, objs := [] }, calls := [] }

/-- One scheduled step, as in `Model/Conc.lean`; `none` if the call cannot move. -/
def IConfig.next {σ : Type} (I : IndexImpl σ) (c : IConfig σ) : Sched → Option (IConfig σ)
  | .call op o => some { c with calls := c.calls ++ [{ op := op, oracle := o, prog := op.iprog }] }
  | .go t =>
    match c.calls[t]? with
    | some { op := op, oracle := o, prog := .act a k } =>
      match iexec I o t a c.sh with
      | .ok b s' => some { sh := s', calls := c.calls.set t { op := op, oracle := o, prog := k b } }
      | .blocked => none
      | .crash e => some { c with calls := c.calls.set t { op := op, oracle := o, prog := .crash e } }
    | _ => none

/-- A whole schedule. -/
def IConfig.play {σ : Type} (I : IndexImpl σ) (c : IConfig σ) : List Sched → Option (IConfig σ)
  | [] => some c
  | x :: xs =>
    match c.next I x with
    | some c' => c'.play I xs
    | none => none

end Visigoth
