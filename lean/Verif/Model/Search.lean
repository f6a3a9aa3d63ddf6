import Verif.Model.Entities
import Verif.Model.GoMap
/-!
# Search engines  (`search_*.go`)

An engine may ask an index for a document that does not exist, which panics in Go; engines are
therefore `Option`-valued, `none` meaning a panic (index out of range).
-/
namespace Visigoth

/-- `SearchResult` (search_result.go:6-9).  Simplification: `Hits int` is a `Nat` (no overflow). -/
structure SearchResult where
  document : Doc
  hits : Nat
deriving DecidableEq, Repr

/-- `Indexer` (search_search.go:15-19).  `indexed` distinguishes a nil slice (`none`); `document`
is `none` where Go panics. -/
structure Indexer where
  len : Nat
  indexed : Str → Option (List Nat)
  document : Nat → Option Doc

/-- `Engine` (search_search.go:22). -/
abbrev Engine := List Str → Indexer → Option (List SearchResult)

/-- `SearchResults.Less` on two results (search_result.go:31-38). -/
def less (a b : SearchResult) : Bool :=
  if a.hits ≠ b.hits then a.hits > b.hits
  else decide (a.document.id < b.document.id)

/-- The inner loop over one posting list (search_hits_search.go:60-75). -/
def hitsInner (ix : Indexer) : List Nat → GoMap HashKey SearchResult →
    Option (GoMap HashKey SearchResult)
  | [], docHits => some docHits
  | index :: rest, docHits =>
    match ix.document index with
    | none => none
    | some doc =>
      match docHits.get doc.hash with
      | some result => hitsInner ix rest (docHits.set doc.hash { result with hits := result.hits + 1 })
      | none => hitsInner ix rest (docHits.set doc.hash { document := doc, hits := 1 })

/-- Phase 1, the loop over the query tokens (search_hits_search.go:52-76). -/
def hitsPhase1 (ix : Indexer) : List Str → GoMap HashKey SearchResult →
    Option (GoMap HashKey SearchResult)
  | [], docHits => some docHits
  | token :: rest, docHits =>
    match ix.indexed token with
    | none => hitsPhase1 ix rest docHits
    | some indexed =>
      match hitsInner ix indexed docHits with
      | none => none
      | some docHits' => hitsPhase1 ix rest docHits'

/-- Phase 2 (search_hits_search.go:79-91): the positions still to visit are given explicitly. -/
def hitsPhase2 (ix : Indexer) (threshold : Nat) (docHits : GoMap HashKey SearchResult) :
    List Nat → Option (List SearchResult)
  | [] => some []
  | i :: rest =>
    match ix.document i with
    | none => none
    | some doc =>
      match hitsPhase2 ix threshold docHits rest with
      | none => none
      | some results =>
        match docHits.get doc.hash with
        | some result => if result.hits ≥ threshold then some (result :: results) else some results
        | none => some results

/-- `HitsSearch` (search_hits_search.go:43-97).  `sort` models `sort.Sort` with
`SearchResults.Less`; Go's standard library is not part of the repository, its contract is
`SortContract`. -/
def hitsSearch (sort : List SearchResult → List SearchResult) : Engine := fun tokens ix =>
  match hitsPhase1 ix tokens [] with
  | none => none
  | some docHits =>
    match hitsPhase2 ix tokens.length docHits (List.range ix.len) with
    | none => none
    | some results => some (sort results)

/-- The contract of `sort.Sort` for a strict weak order: the result is a rearrangement of the input
in which no element is less than an earlier one. -/
def SortContract (sort : List SearchResult → List SearchResult) : Prop :=
  ∀ l, (sort l).Perm l ∧ (sort l).Pairwise (fun a b => less b a = false)

/-- The loop of `intersection` (search_linear_search.go:19-29): `a[i:]` and `b[j:]` are the suffixes
still to be merged; every iteration consumes an element, so `len(a) + len(b)` iterations suffice.  The
elements are `int`s in Go; here any type with `<`: `Nat` for positions, `Int` for arbitrary slices. -/
def interLoop {α : Type} [LT α] [DecidableLT α] : Nat → List α → List α → List α
  | 0, _, _ => []
  | _ + 1, [], _ => []
  | _ + 1, _ :: _, [] => []
  | fuel + 1, a :: as, b :: bs =>
    if a < b then interLoop fuel as (b :: bs)
    else if a > b then interLoop fuel (a :: as) bs
    else a :: interLoop fuel as bs

/-- `intersection` (search_linear_search.go:12-31). -/
def intersection {α : Type} [LT α] [DecidableLT α] (a b : List α) : List α := interLoop (a.length + b.length) a b

/-- The loop over the remaining tokens (search_linear_search.go:70-79); `none` is the early
`return nil`. -/
def linearLoop (ix : Indexer) : List Str → List Nat → Option (List Nat)
  | [], docs => some docs
  | t :: ts, docs =>
    match ix.indexed t with
    | none => none
    | some nextDocs =>
      match intersection docs nextDocs with
      | [] => none
      | d :: ds => linearLoop ix ts (d :: ds)

/-- Conversion of positions to results (search_linear_search.go:82-89). -/
def toResults (ix : Indexer) (hits : Nat) : List Nat → Option (List SearchResult)
  | [] => some []
  | i :: rest =>
    match ix.document i with
    | none => none
    | some doc =>
      match toResults ix hits rest with
      | none => none
      | some rs => some ({ document := doc, hits := hits } :: rs)

/-- `LinearSearch` (search_linear_search.go:58-92).  A nil result slice is the empty list. -/
def linearSearch : Engine := fun tokens ix =>
  match tokens with
  | [] => some []
  | t :: ts =>
    match ix.indexed t with
    | none => some []
    | some docs =>
      match linearLoop ix ts docs with
      | none => some []
      | some docs => toResults ix tokens.length docs

/-- `NoopZeroSearch` (search_noop_search.go:6-8). -/
def noopZeroSearch : Engine := fun _ _ => some []

/-- `NoopAllSearch` (search_noop_search.go:11-21). -/
def noopAllSearch : Engine := fun _ ix => toResults ix 0 (List.range ix.len)

end Visigoth
