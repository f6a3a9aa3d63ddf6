import Verif.Model.Index
/-!
# What the engines do, step by step

The engines of `Model/Search.lean` again, now recording in order every call they make on the `Indexer`
interface (search_search.go:15-19) and every iteration of the loop of `intersection`.  That the results are
the same is a theorem (`Proofs/Ask.lean`).
-/
namespace Visigoth

/-- A step of an engine: a method call on the index, or an iteration of `intersection`'s loop. -/
inductive Ask where
  | len
  | indexed (token : Str)
  | document (i : Nat)
  | compare
deriving DecidableEq, Repr

/-- A computation that uses an index: the steps it makes, and its value (`none`: it panicked). -/
def Asking (α : Type) := Indexer → List Ask × Option α

def Asking.pure {α : Type} (a : α) : Asking α := fun _ => ([], some a)

def Asking.bind {α β : Type} (p : Asking α) (f : α → Asking β) : Asking β := fun ix =>
  match p ix with
  | (l, none) => (l, none)
  | (l, some a) => (l ++ (f a ix).1, (f a ix).2)

instance : Monad Asking where
  pure := Asking.pure
  bind := Asking.bind

/-- `Indexer.Len` (search_search.go:16). -/
def askLen : Asking Nat := fun ix => ([.len], some ix.len)

/-- `Indexer.Indexed` (search_search.go:17); the value `none` is the nil slice. -/
def askIndexed (token : Str) : Asking (Option (List Nat)) := fun ix => ([.indexed token], some (ix.indexed token))

/-- `Indexer.Document` (search_search.go:18). -/
def askDocument (i : Nat) : Asking Doc := fun ix => ([.document i], ix.document i)

/-- One iteration of `intersection`'s loop (search_linear_search.go:19). -/
def tick : Asking Unit := fun _ => ([.compare], some ())

/-- A loop over all positions below `Len` (which does not change during a search); the calls of `Len` are
made by the body `f`. -/
def overPositions {α : Type} (f : List Nat → Asking α) : Asking α := fun ix => f (List.range ix.len) ix

/-- The inner loop over one posting list (search_hits_search.go:60-75). -/
def hitsInnerA : List Nat → GoMap HashKey SearchResult → Asking (GoMap HashKey SearchResult)
  | [], docHits => pure docHits
  | index :: rest, docHits => do
    let doc ← askDocument index
    match docHits.get doc.hash with
    | some result => hitsInnerA rest (docHits.set doc.hash { result with hits := result.hits + 1 })
    | none => hitsInnerA rest (docHits.set doc.hash { document := doc, hits := 1 })

/-- Phase 1 (search_hits_search.go:52-76). -/
def hitsPhase1A : List Str → GoMap HashKey SearchResult → Asking (GoMap HashKey SearchResult)
  | [], docHits => pure docHits
  | token :: rest, docHits => do
    match ← askIndexed token with
    | none => hitsPhase1A rest docHits
    | some indexed =>
      let docHits' ← hitsInnerA indexed docHits
      hitsPhase1A rest docHits'

/-- Phase 2 (search_hits_search.go:83-91): `Len` is called before every iteration, and once more before
the loop ends.  The positions still to visit are given explicitly. -/
def hitsPhase2A (threshold : Nat) (docHits : GoMap HashKey SearchResult) : List Nat → Asking (List SearchResult)
  | [] => do
    let _ ← askLen
    pure []
  | i :: rest => do
    let _ ← askLen
    let doc ← askDocument i
    let results ← hitsPhase2A threshold docHits rest
    match docHits.get doc.hash with
    | some result => if result.hits ≥ threshold then pure (result :: results) else pure results
    | none => pure results

/-- `HitsSearch` (search_hits_search.go:43-97); the steps of the sort are not recorded. -/
def hitsSearchA (sort : List SearchResult → List SearchResult) (tokens : List Str) : Asking (List SearchResult) := do
  let docHits ← hitsPhase1A tokens []
  let results ← overPositions (hitsPhase2A tokens.length docHits)
  pure (sort results)

/-- The loop of `intersection` (search_linear_search.go:19-29). -/
def interLoopA : Nat → List Nat → List Nat → Asking (List Nat)
  | 0, _, _ => pure []
  | _ + 1, [], _ => pure []
  | _ + 1, _ :: _, [] => pure []
  | fuel + 1, a :: as, b :: bs => do
    tick
    if a < b then interLoopA fuel as (b :: bs)
    else if a > b then interLoopA fuel (a :: as) bs
    else
      let r ← interLoopA fuel as bs
      pure (a :: r)

/-- The loop over the remaining tokens (search_linear_search.go:70-79); `none` is the early return. -/
def linearLoopA : List Str → List Nat → Asking (Option (List Nat))
  | [], docs => pure (some docs)
  | t :: ts, docs => do
    match ← askIndexed t with
    | none => pure none
    | some nextDocs =>
      match ← interLoopA (docs.length + nextDocs.length) docs nextDocs with
      | [] => pure none
      | d :: ds => linearLoopA ts (d :: ds)

/-- Conversion of positions to results (search_linear_search.go:82-89). -/
def toResultsA (hits : Nat) : List Nat → Asking (List SearchResult)
  | [] => pure []
  | i :: rest => do
    let doc ← askDocument i
    let rs ← toResultsA hits rest
    pure ({ document := doc, hits := hits } :: rs)

/-- `LinearSearch` (search_linear_search.go:58-92). -/
def linearSearchA (tokens : List Str) : Asking (List SearchResult) :=
  match tokens with
  | [] => pure []
  | t :: ts => do
    match ← askIndexed t with
    | none => pure []
    | some docs =>
      match ← linearLoopA ts docs with
      | none => pure []
      | some docs => toResultsA tokens.length docs

/-- `NoopZeroSearch` (search_noop_search.go:6-8). -/
def noopZeroSearchA (_ : List Str) : Asking (List SearchResult) := pure []

/-- The loop of `NoopAllSearch` (search_noop_search.go:13-19); `Len` as in `hitsPhase2A`. -/
def noopAllLoopA : List Nat → Asking (List SearchResult)
  | [] => do
    let _ ← askLen
    pure []
  | i :: rest => do
    let _ ← askLen
    let doc ← askDocument i
    let rs ← noopAllLoopA rest
    pure ({ document := doc, hits := 0 } :: rs)

/-- `NoopAllSearch` (search_noop_search.go:11-21). -/
def noopAllSearchA (_ : List Str) : Asking (List SearchResult) := overPositions noopAllLoopA

end Visigoth
