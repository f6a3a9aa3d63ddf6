import Verif.Model.Conc
/-!
# Tokenizers and builders that panic

`Put` calls the builder and the tokenizer, and `Search` the tokenizer (repos_repo.go:216-238 and 162-214,
index_memory_index.go:44-64).  Both are supplied by the user of the package and may panic.  Here they do, on
some names and some texts.  A panic in the goroutine of the caller unwinds the call and may be recovered:
`Search` has a deferred `RUnlock`, `Put` has no deferred `Unlock`.  A panic in a goroutine that the call started
ends the process.

Simplification: whether the tokenizer panics depends on the text alone, and whether the builder does on the name.
(Engines that panic are in `Model/Recover.lean`.)
-/
namespace Visigoth

/-- The names on which the builder panics, and the texts on which the tokenizer does. -/
structure UserPanics where
  builder : Name → Bool
  tokenizer : Str → Bool

/-- How a call ends. -/
inductive UEnd (α : Type) where
  | returned (a : α)
  /-- it panicked, was unwound, and its caller recovered -/
  | panicked
  /-- a goroutine it started panicked: the process is gone -/
  | died
deriving DecidableEq

namespace Repo

/-- repos_repo.go:219-227: a new index, registered before its first document is put.  `MemoryIndex.Put` begins with
the tokenizer (index_memory_index.go:45). -/
def putNewU (cfg : Cfg) (P : UserPanics) (indexName : Name) (doc : DocRequest) : Prog (UEnd Unit) :=
  if P.builder indexName then return .panicked
  else do
    let p ← perform (.newIndex indexName)
    perform (.idxSet indexName p)
    if P.tokenizer doc.statement then return .panicked
    else do
      putIndex cfg p doc
      perform (.unlock .indices)
      return .returned ()

/-- repos_repo.go:228-237: one goroutine for each index. -/
def putTargetsU (cfg : Cfg) (P : UserPanics) (indices : List (Option Ptr)) (doc : DocRequest) : Prog (UEnd Unit) :=
  if indices ≠ [] ∧ P.tokenizer doc.statement then return .died
  else do
    putTargets cfg indices doc
    perform (.unlock .indices)
    return .returned ()

/-- `IndexRepo.Put` (repos_repo.go:216-238) with a builder and a tokenizer that may panic. -/
def putU (cfg : Cfg) (P : UserPanics) (indexName : Name) (doc : DocRequest) : Prog (UEnd Unit) := do
  let r ← getIndices indexName
  lock .indices
  match r with
  | none => putNewU cfg P indexName doc
  | some indices => putTargetsU cfg P indices doc

/-- repos_repo.go:191-213 with a tokenizer that may panic: one index is searched in the goroutine of the caller,
several are not.  A nil `Index` panics before its tokenizer is called. -/
def searchTargetsU (P : UserPanics) (indices : List (Option Ptr)) (terms : Str) (engine : Engine) :
    Prog (UEnd (List SearchResult)) :=
  match nonNil indices with
  | none => .crash .nilIndex
  | some ps =>
    if P.tokenizer terms ∧ ps.length = 1 then return .panicked
    else if P.tokenizer terms ∧ ps ≠ [] then return .died
    else do return .returned (← searchTargets indices terms engine)

/-- The deferred `RUnlock` of `Search` (repos_repo.go:168), which runs when the call returns or panics. -/
def deferRUnlock {α β : Type} (f : α → β) : UEnd α → Prog (UEnd β)
  | .died => return .died
  | .panicked => do
    perform (.runlock .indices)
    return .panicked
  | .returned a => do
    perform (.runlock .indices)
    return .returned (f a)

/-- `IndexRepo.Search` (repos_repo.go:162-214) with a tokenizer that may panic; `none` is the error return. -/
def searchU (P : UserPanics) (indexName : Name) (terms : Str) (engine : Engine) :
    Prog (UEnd (Option (List SearchResult))) := do
  perform (.rlock .indices)
  match ← perform (.idxGet indexName) with
  | some i =>
    let res ← searchTargetsU P [some i] terms engine
    deferRUnlock some res
  | none =>
    perform (.rlock .aliases)
    match ← perform (.alGet indexName) with
    | none =>
      perform (.runlock .aliases)
      perform (.runlock .indices)
      return .returned none
    | some aliasedIndices =>
      let indices ← resolveFrom aliasedIndices 0 aliasedIndices.len
      perform (.runlock .aliases)
      let res ← searchTargetsU P indices terms engine
      deferRUnlock some res

end Repo

/-- A `Put` among concurrent calls (`Model/Conc.lean`).  A panicked call is a crash there: the call is over, and
what it holds stays as it is.  (When the process ends, that is a crash too, as for a nil `Index`.) -/
def putThreadU (cfg : Cfg) (P : UserPanics) (o : Oracle) (n : Name) (d : DocRequest) : Thread :=
  { op := .put n d
    oracle := o
    prog := do
      match ← Repo.putU cfg P n d with
      | .returned _ => return .unit
      | .panicked => .crash .engine
      | .died => .crash .nilIndex }

end Visigoth
