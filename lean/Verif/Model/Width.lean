import Verif.Model.Search
/-!
# HitsSearch with the `int` of the machine  (`search_hits_search.go`, `search_result.go`)

In `Model/Search.lean` `Hits` is a natural number.  Here it is an `int` of `w` bits (in Go 32 or 64) that wraps
around.  Lengths and positions are numbers of elements of slices, which never exceed an `int`.
-/
namespace Visigoth

/-- The value of an `int` of `w` bits after arithmetic: two's complement. -/
def wrapInt (w : Nat) (i : Int) : Int := i.bmod (2 ^ w)

/-- `SearchResult` (search_result.go:6-9). -/
structure IntResult where
  document : Doc
  hits : Int
deriving DecidableEq, Repr

/-- `SearchResults.Less` (search_result.go:31-38). -/
def lessInt (a b : IntResult) : Bool :=
  if a.hits ≠ b.hits then a.hits > b.hits
  else decide (a.document.id < b.document.id)

/-- The inner loop over one posting list (search_hits_search.go:60-75), with `result.Hits++` at line 66. -/
def hitsInnerInt (w : Nat) (ix : Indexer) : List Nat → GoMap HashKey IntResult → Option (GoMap HashKey IntResult)
  | [], docHits => some docHits
  | index :: rest, docHits =>
    match ix.document index with
    | none => none
    | some doc =>
      match docHits.get doc.hash with
      | some result => hitsInnerInt w ix rest (docHits.set doc.hash { result with hits := wrapInt w (result.hits + 1) })
      | none => hitsInnerInt w ix rest (docHits.set doc.hash { document := doc, hits := 1 })

/-- Phase 1, the loop over the query tokens (search_hits_search.go:52-76). -/
def hitsPhase1Int (w : Nat) (ix : Indexer) : List Str → GoMap HashKey IntResult → Option (GoMap HashKey IntResult)
  | [], docHits => some docHits
  | token :: rest, docHits =>
    match ix.indexed token with
    | none => hitsPhase1Int w ix rest docHits
    | some indexed =>
      match hitsInnerInt w ix indexed docHits with
      | none => none
      | some docHits' => hitsPhase1Int w ix rest docHits'

/-- Phase 2 (search_hits_search.go:79-91), over the given positions. -/
def hitsPhase2Int (ix : Indexer) (threshold : Int) (docHits : GoMap HashKey IntResult) :
    List Nat → Option (List IntResult)
  | [] => some []
  | i :: rest =>
    match ix.document i with
    | none => none
    | some doc =>
      match hitsPhase2Int ix threshold docHits rest with
      | none => none
      | some results =>
        match docHits.get doc.hash with
        | some result => if result.hits ≥ threshold then some (result :: results) else some results
        | none => some results

/-- `HitsSearch` (search_hits_search.go:43-97). -/
def hitsSearchInt (w : Nat) (sort : List IntResult → List IntResult) (tokens : List Str) (ix : Indexer) :
    Option (List IntResult) :=
  match hitsPhase1Int w ix tokens [] with
  | none => none
  | some docHits =>
    match hitsPhase2Int ix tokens.length docHits (List.range ix.len) with
    | none => none
    | some results => some (sort results)

/-- The contract of `sort.Sort`, as `SortContract`. -/
def SortContractInt (sort : List IntResult → List IntResult) : Prop :=
  ∀ l, (sort l).Perm l ∧ (sort l).Pairwise (fun a b => lessInt b a = false)

end Visigoth
