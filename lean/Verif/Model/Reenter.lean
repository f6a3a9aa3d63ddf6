import Verif.Model.Conc
/-!
# Engines and tokenizers that call the repository

`Search` calls the engine, and `Put` the tokenizer, while the index mutex is held (repos_repo.go:167-168
and 218).  Both are supplied by the user of the package, as functions (search_search.go:22,
index_index.go:5-7), and may call the repository themselves.  `Model/Repo.lean` takes them as pure functions;
here they make calls.

Simplifications: the calls are made before the results are computed, or the text is split; an engine does
not see the answers of the index before it makes its calls; the goroutines of one call run one after the
other, as in `Model/Repo.lean`.
-/
namespace Visigoth

/-- Code that calls the repository: each call may depend on the answers to the calls before. -/
inductive Client (α : Type) where
  | ret (a : α)
  | call (op : Op) (k : Ret → Client α)

/-- The program of such code: the programs of its calls, one after the other. -/
def Client.prog {α : Type} (cfg : Cfg) : Client α → Prog α
  | .ret a => pure a
  | .call op k => do
    let r ← op.prog cfg
    (k r).prog cfg

namespace Repo

/-- `idx.Search(terms, engine)` (repos_repo.go:192, 206; index_memory_index.go:62-64). -/
def searchIndexC (cfg : Cfg) (p : Ptr) (terms : Str) (engine : Ptr → Client Engine) : Prog (List SearchResult) := do
  let e ← (engine p).prog cfg
  searchIndex p terms e

/-- The goroutines of `Search` (repos_repo.go:203-211). -/
def searchAllC (cfg : Cfg) (terms : Str) (engine : Ptr → Client Engine) : List Ptr → Prog (List SearchResult)
  | [] => return []
  | p :: ps => do
    let sr ← searchIndexC cfg p terms engine
    let rest ← searchAllC cfg terms engine ps
    return sr ++ rest

/-- repos_repo.go:191-213. -/
def searchTargetsC (cfg : Cfg) (indices : List (Option Ptr)) (terms : Str) (engine : Ptr → Client Engine) :
    Prog (List SearchResult) :=
  match nonNil indices with
  | none => .crash .nilIndex
  | some [p] => searchIndexC cfg p terms engine
  | some ps => do
    let ps ← perform (.schedule ps)
    searchAllC cfg terms engine ps

/-- `IndexRepo.Search` (repos_repo.go:162-214) with an engine that calls the repository. -/
def searchC (cfg : Cfg) (indexName : Name) (terms : Str) (engine : Ptr → Client Engine) :
    Prog (Option (List SearchResult)) := do
  perform (.rlock .indices)
  match ← perform (.idxGet indexName) with
  | some i =>
    let res ← searchTargetsC cfg [some i] terms engine
    perform (.runlock .indices)
    return some res
  | none =>
    perform (.rlock .aliases)
    match ← perform (.alGet indexName) with
    | none =>
      perform (.runlock .aliases)
      perform (.runlock .indices)
      return none
    | some aliasedIndices =>
      let indices ← resolveFrom aliasedIndices 0 aliasedIndices.len
      perform (.runlock .aliases)
      let res ← searchTargetsC cfg indices terms engine
      perform (.runlock .indices)
      return some res

/-- `index.Put(doc)` (index_memory_index.go:44-60) with a tokenizer that calls the repository. -/
def putIndexC (cfg : Cfg) (p : Ptr) (doc : DocRequest) (tokenizer : Client Unit) : Prog Unit := do
  tokenizer.prog cfg
  putIndex cfg p doc

/-- The goroutines of `Put` (repos_repo.go:230-235). -/
def putAllC (cfg : Cfg) (doc : DocRequest) (tokenizer : Client Unit) : List Ptr → Prog Unit
  | [] => return ()
  | p :: ps => do
    putIndexC cfg p doc tokenizer
    putAllC cfg doc tokenizer ps

/-- repos_repo.go:228-236. -/
def putTargetsC (cfg : Cfg) (indices : List (Option Ptr)) (doc : DocRequest) (tokenizer : Client Unit) : Prog Unit :=
  match nonNil indices with
  | none => .crash .nilIndex
  | some ps =>
    if ps.Nodup then do
      let ps ← perform (.schedule ps)
      putAllC cfg doc tokenizer ps
    else .crash .race

/-- `IndexRepo.Put` (repos_repo.go:216-238) with a tokenizer that calls the repository. -/
def putC (cfg : Cfg) (indexName : Name) (doc : DocRequest) (tokenizer : Client Unit) : Prog Unit := do
  let r ← getIndices indexName
  lock .indices
  match r with
  | none =>
    let p ← perform (.newIndex indexName)
    perform (.idxSet indexName p)
    putIndexC cfg p doc tokenizer
    perform (.unlock .indices)
  | some indices =>
    putTargetsC cfg indices doc tokenizer
    perform (.unlock .indices)

end Repo

/-- A call of a method with code of the user that calls the repository. -/
inductive COp where
  /-- any method, with an engine or a tokenizer that makes no calls -/
  | plain (op : Op)
  | search (name : Name) (terms : Str) (engine : Ptr → Client Engine)
  | put (name : Name) (doc : DocRequest) (tokenizer : Client Unit)

/-- The program of a call. -/
def COp.prog (cfg : Cfg) : COp → Prog Ret
  | .plain op => op.prog cfg
  | .search n ts e => do
    match ← Repo.searchC cfg n ts e with
    | some r => return .results r
    | none => return .noIndex
  | .put n d t => do
    Repo.putC cfg n d t
    return .unit

/-- The method called (with an engine that finds nothing, which is not used). -/
def COp.op : COp → Op
  | .plain op => op
  | .search n ts _ => .search n ts noopZeroSearch
  | .put n d _ => .put n d

/-- A new call. -/
def COp.thread (cfg : Cfg) (x : COp) (o : Oracle) : Thread := { op := x.op, oracle := o, prog := x.prog cfg }

/-- A step: some call moves, or a new call is made, which is one of those in `P`. -/
inductive CStep (cfg : Cfg) (P : COp → Prop) : Config → Config → Prop where
  | move {c c' : Config} (t : Tid) (h : TStep cfg t c c') : CStep cfg P c c'
  | invoke (c : Config) (x : COp) (o : Oracle) (h : P x) : CStep cfg P c { c with calls := c.calls ++ [x.thread cfg o] }

/-- Executions. -/
inductive CSteps (cfg : Cfg) (P : COp → Prop) : Config → Config → Prop where
  | refl (c : Config) : CSteps cfg P c c
  | tail {c c' c'' : Config} (h : CSteps cfg P c c') (hs : CStep cfg P c' c'') : CSteps cfg P c c''

end Visigoth
