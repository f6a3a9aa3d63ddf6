import Verif.Model.Prog
/-!
# The methods of `IndexRepo`  (`repos_repo.go`)

Streams returned by `Search` (`streams.MemReader`) are represented by the list they read from.
-/
namespace Visigoth
namespace Repo

/-- `mu.Lock()`. -/
def lock (m : Mu) : Prog Unit := do
  perform (.announce m)
  perform (.acquire m)

/-- `for i, x := range r` collecting the elements, from position `i` on, `n` of them. -/
def readFrom (r : SliceRef) (i : Nat) : Nat → Prog (List Name)
  | 0 => return []
  | n + 1 => do
    let x ← perform (.slRead r i)
    let xs ← readFrom r (i + 1) n
    return x :: xs

/-- Read all elements of a slice, one at a time. -/
def readSlice (r : SliceRef) : Prog (List Name) := readFrom r 0 r.len

/-- `IndexRepo.List` (repos_repo.go:44-54). -/
def list : Prog (List Name) := do
  perform (.rlock .indices)
  let indices ← perform .idxKeys
  perform (.runlock .indices)
  return indices

/-- `IndexRepo.Has` (repos_repo.go:56-61). -/
def has (name : Name) : Prog Bool := do
  perform (.rlock .indices)
  let p ← perform (.idxGet name)
  perform (.runlock .indices)
  return p.isSome

/-- `IndexRepo.HasAlias` (repos_repo.go:63-68). -/
def hasAlias (name : Name) : Prog Bool := do
  perform (.rlock .aliases)
  let r ← perform (.alGet name)
  perform (.runlock .aliases)
  return r.isSome

/-- The search loop of `Alias` (repos_repo.go:84-89), stopping at the first match. -/
def sliceHas (r : SliceRef) (index : Name) (i : Nat) : Nat → Prog Bool
  | 0 => return false
  | n + 1 => do
    let ri ← perform (.slRead r i)
    if ri = index then return true else sliceHas r index (i + 1) n

/-- `IndexRepo.Alias` (repos_repo.go:70-102). -/
def alias (alias index : Name) : Prog Bool := do
  perform (.rlock .indices)
  match ← perform (.idxGet index) with
  | none =>
    perform (.runlock .indices)
    return false
  | some _ =>
    lock .aliases
    let indices ← perform (.alGet alias)
    let added ← match indices with
      | some indices => do
        let exist ← sliceHas indices index 0 indices.len
        if exist then pure false
        else do
          let r ← perform (.slAppend indices index)
          perform (.alSet alias r)
          pure true
      | none => do
        let r ← perform (.slNew [index])
        perform (.alSet alias r)
        pure true
    perform (.unlock .aliases)
    perform (.runlock .indices)
    return added

/-- `IndexRepo.UnAlias` (repos_repo.go:104-136).  The early returns at lines 115 and 121 do not
release the mutex taken at lines 113 and 118.  Simplification: `newIndices` is private until it is
stored, so it is built as a value and allocated when stored. -/
def unAlias (alias index : Name) : Prog Bool := do
  if index.length = 0 then
    lock .aliases
    let r ← perform (.alGet alias)
    perform (.alDel alias)
    perform (.unlock .aliases)
    return r.isSome
  else
    perform (.rlock .indices)
    match ← perform (.idxGet index) with
    | none => return false
    | some _ =>
      perform (.runlock .indices)
      lock .aliases
      match ← perform (.alGet alias) with
      | none => return false
      | some indices =>
        let xs ← readSlice indices
        let newIndices := xs.filter (fun x => x ≠ index)
        if newIndices.length ≠ indices.len then
          let r ← perform (.slNew newIndices)
          perform (.alSet alias r)
        perform (.unlock .aliases)
        return true

/-- Inner loop of `Rename` (repos_repo.go:152-156): positions `i .. i+n-1`. -/
def renameSlice (r : SliceRef) (old new : Name) (i : Nat) : Nat → Prog Unit
  | 0 => return ()
  | n + 1 => do
    let indexName ← perform (.slRead r i)
    if indexName = old then perform (.slWrite r i new)
    renameSlice r old new (i + 1) n

/-- Outer loop of `Rename` (repos_repo.go:151-157) over the given alias names. -/
def renameAliases (old new : Name) : List Name → Prog Unit
  | [] => return ()
  | k :: ks => do
    match ← perform (.alGet k) with
    | none => renameAliases old new ks
    | some r =>
      renameSlice r old new 0 r.len
      renameAliases old new ks

/-- `IndexRepo.Rename` (repos_repo.go:139-160).  The alias mutex is not taken. -/
def rename (old new : Name) : Prog Bool := do
  lock .indices
  match ← perform (.idxGet old) with
  | none =>
    perform (.unlock .indices)
    return false
  | some index =>
    perform (.idxSet new index)
    perform (.idxDel old)
    let ks ← perform .alKeys
    renameAliases old new ks
    perform (.unlock .indices)
    return true

/-- The loop `res[i] = h.indices[index]` (repos_repo.go:185-187 and 300-302); `none` is a nil
`Index`. -/
def resolveFrom (r : SliceRef) (i : Nat) : Nat → Prog (List (Option Ptr))
  | 0 => return []
  | n + 1 => do
    let index ← perform (.slRead r i)
    let p ← perform (.idxGet index)
    let ps ← resolveFrom r (i + 1) n
    return p :: ps

/-- `indices[0].Search(terms, engine)` and the goroutine body `idx.Search` (repos_repo.go:192, 206). -/
def searchIndex (p : Ptr) (terms : Str) (engine : Engine) : Prog (List SearchResult) := do
  match ← perform (.evalEngine p terms engine) with
  | some sr => return sr
  | none => .crash .engine

/-- The goroutines of `Search` (repos_repo.go:203-211).  Each goroutine reads an index and appends
its results under a private mutex; they are run one after the other in the completion order the
scheduler chooses. -/
def searchAll (terms : Str) (engine : Engine) : List Ptr → Prog (List SearchResult)
  | [] => return []
  | p :: ps => do
    let sr ← searchIndex p terms engine
    let rest ← searchAll terms engine ps
    return sr ++ rest

/-- All elements, or `none` if one of them is a nil `Index`. -/
def nonNil : List (Option Ptr) → Option (List Ptr)
  | [] => some []
  | none :: _ => none
  | some p :: ps => (nonNil ps).map (p :: ·)

/-- repos_repo.go:191-213: search the resolved indices. -/
def searchTargets (indices : List (Option Ptr)) (terms : Str) (engine : Engine) :
    Prog (List SearchResult) :=
  match nonNil indices with
  | none => .crash .nilIndex
  | some [p] => searchIndex p terms engine
  | some ps => do
    let ps ← perform (.schedule ps)
    searchAll terms engine ps

/-- `IndexRepo.Search` (repos_repo.go:162-214); `none` is the error return. -/
def search (indexName : Name) (terms : Str) (engine : Engine) :
    Prog (Option (List SearchResult)) := do
  perform (.rlock .indices)
  match ← perform (.idxGet indexName) with
  | some i =>
    let res ← searchTargets [some i] terms engine
    perform (.runlock .indices)
    return some res
  | none =>
    perform (.rlock .aliases)
    match ← perform (.alGet indexName) with
    | none =>
      perform (.runlock .aliases)
      perform (.runlock .indices)
      return none
    | some aliasedIndices =>
      let indices ← resolveFrom aliasedIndices 0 aliasedIndices.len
      perform (.runlock .aliases)
      let res ← searchTargets indices terms engine
      perform (.runlock .indices)
      return some res

/-- `IndexRepo.getIndices` (repos_repo.go:283-306). -/
def getIndices (name : Name) : Prog (Option (List (Option Ptr))) := do
  perform (.rlock .indices)
  match ← perform (.idxGet name) with
  | some i =>
    perform (.runlock .indices)
    return some [some i]
  | none =>
    perform (.rlock .aliases)
    match ← perform (.alGet name) with
    | none =>
      perform (.runlock .aliases)
      perform (.runlock .indices)
      return none
    | some aliasedIndices =>
      let res ← resolveFrom aliasedIndices 0 aliasedIndices.len
      perform (.runlock .indices)
      perform (.runlock .aliases)
      return some res

/-- The token loop of `MemoryIndex.Put` (index_memory_index.go:50-58) as steps. -/
def putPostings (p : Ptr) (next : Nat) : List Str → Prog Unit
  | [] => return ()
  | tok :: toks => do
    perform (.postAdd p tok next)
    putPostings p next toks

/-- `index.Put(doc)` (index_memory_index.go:44-60) as steps. -/
def putIndex (cfg : Cfg) (p : Ptr) (doc : DocRequest) : Prog Unit := do
  let tokens := cfg.tok doc.statement
  let next ← perform (.docAppend p (newDoc doc.id doc.raw))
  putPostings p next tokens

/-- The goroutines of `Put` (repos_repo.go:230-235), in completion order.  `Props/Goroutines.lean`
shows that, for distinct indices, every interleaving of their steps has the same effect. -/
def putAll (cfg : Cfg) (doc : DocRequest) : List Ptr → Prog Unit
  | [] => return ()
  | p :: ps => do
    putIndex cfg p doc
    putAll cfg doc ps

/-- repos_repo.go:228-236: a nil `Index` is a nil dereference, a repeated index is written by two
unsynchronised goroutines. -/
def putTargets (cfg : Cfg) (indices : List (Option Ptr)) (doc : DocRequest) : Prog Unit :=
  match nonNil indices with
  | none => .crash .nilIndex
  | some ps =>
    if ps.Nodup then do
      let ps ← perform (.schedule ps)
      putAll cfg doc ps
    else .crash .race

/-- `IndexRepo.Put` (repos_repo.go:216-238). -/
def put (cfg : Cfg) (indexName : Name) (doc : DocRequest) : Prog Unit := do
  let r ← getIndices indexName
  lock .indices
  match r with
  | none =>
    let p ← perform (.newIndex indexName)
    perform (.idxSet indexName p)
    putIndex cfg p doc
    perform (.unlock .indices)
  | some indices =>
    putTargets cfg indices doc
    perform (.unlock .indices)

/-- The loop of `Drop` over the aliases (repos_repo.go:251-263). -/
def dropAliases (indexName : Name) : List Name → Prog Unit
  | [] => return ()
  | k :: ks => do
    match ← perform (.alGet k) with
    | none => dropAliases indexName ks
    | some indices =>
      let xs ← readSlice indices
      let newIndices := xs.filter (fun x => x ≠ indexName)
      if newIndices.length < 1 then
        perform (.alDel k)
        dropAliases indexName ks
      else if newIndices.length ≠ indices.len then
        let r ← perform (.slNew newIndices)
        perform (.alSet k r)
        dropAliases indexName ks
      else dropAliases indexName ks

/-- `IndexRepo.Drop` (repos_repo.go:240-269). -/
def drop (indexName : Name) : Prog Bool := do
  perform (.rlock .indices)
  match ← perform (.idxGet indexName) with
  | none =>
    perform (.runlock .indices)
    return false
  | some _ =>
    perform (.runlock .indices)
    lock .indices
    lock .aliases
    let ks ← perform .alKeys
    dropAliases indexName ks
    perform (.idxDel indexName)
    perform (.unlock .indices)
    perform (.unlock .aliases)
    return true

/-- The loop of `ListAliases` (repos_repo.go:275-278). -/
def listRows : List Name → Prog (List (Name × SliceRef))
  | [] => return []
  | k :: ks => do
    match ← perform (.alGet k) with
    | none => listRows ks
    | some v =>
      let rows ← listRows ks
      return (k, v) :: rows

/-- `IndexRepo.ListAliases` (repos_repo.go:271-281).  The rows hold the repository's own slices. -/
def listAliases : Prog (List (Name × SliceRef)) := do
  perform (.rlock .aliases)
  let ks ← perform .alKeys
  let rows ← listRows ks
  perform (.runlock .aliases)
  return rows

/-- The loop of `String` (repos_repo.go:311-313); `fmt.Sprintln` of an index is its `String()` and a
newline. -/
def renderAll : List Name → Prog Str
  | [] => return []
  | k :: ks => do
    match ← perform (.idxGet k) with
    | none => renderAll ks
    | some index =>
      let text ← perform (.render index)
      let rest ← renderAll ks
      return text ++ lit "\n" ++ rest

/-- `IndexRepo.String` (repos_repo.go:308-316). -/
def string : Prog Str := do
  perform (.rlock .indices)
  let ks ← perform .idxKeys
  let buf ← renderAll ks
  perform (.runlock .indices)
  return buf

end Repo

/-- A call of the `Repo` interface (repos_repo.go:12-23), or of `IndexRepo.String`. -/
inductive Op where
  | list
  | listAliases
  | has (name : Name)
  | hasAlias (name : Name)
  | alias (alias index : Name)
  | unAlias (alias index : Name)
  | put (name : Name) (doc : DocRequest)
  | search (name : Name) (terms : Str) (engine : Engine)
  | rename (old new : Name)
  | drop (name : Name)
  | string

/-- What a call returns. -/
inductive Ret where
  | bool (b : Bool)
  | names (l : List Name)
  | rows (l : List (Name × SliceRef))
  | unit
  | results (l : List SearchResult)
  | noIndex
  | text (t : Str)
deriving DecidableEq, Repr

/-- The program of a call. -/
def Op.prog (cfg : Cfg) : Op → Prog Ret
  | .list => do return .names (← Repo.list)
  | .listAliases => do return .rows (← Repo.listAliases)
  | .has n => do return .bool (← Repo.has n)
  | .hasAlias n => do return .bool (← Repo.hasAlias n)
  | .alias a i => do return .bool (← Repo.alias a i)
  | .unAlias a i => do return .bool (← Repo.unAlias a i)
  | .put n d => do
    Repo.put cfg n d
    return .unit
  | .search n ts e => do
    match ← Repo.search n ts e with
    | some r => return .results r
    | none => return .noIndex
  | .rename o n => do return .bool (← Repo.rename o n)
  | .drop n => do return .bool (← Repo.drop n)
  | .string => do return .text (← Repo.string)

end Visigoth
