import Verif.Model.Search
/-!
# Sorting through `sort.Interface`  (`search_result.go`)

`HitsSearch` ends with `sort.Sort(SearchResults(results))` (search_hits_search.go:94).  `sort.Sort` sees
the results only through the three methods of `SearchResults`; an algorithm is a decision tree over
calls of them.
-/
namespace Visigoth

/-- `SearchResult.GetDoc` (search_result.go:11-13). -/
def SearchResult.getDoc (r : SearchResult) : Doc := r.document

/-- `SearchResult.GetHits` (search_result.go:15-17). -/
def SearchResult.getHits (r : SearchResult) : Nat := r.hits

/-- `SearchResult.Doc` (search_result.go:20-22). -/
def SearchResult.doc (r : SearchResult) : Doc := r.document

/-- `SearchResults` (search_result.go:24). -/
abbrev SearchResults := List SearchResult

namespace SearchResults

/-- `SearchResults.Len` (search_result.go:27-29). -/
def len (r : SearchResults) : Nat := r.length

/-- `SearchResults.Less` (search_result.go:31-38); `none` is the out-of-range panic. -/
def less (r : SearchResults) (i j : Nat) : Option Bool :=
  match r[i]?, r[j]? with
  | some a, some b => some (Visigoth.less a b)
  | _, _ => none

/-- `SearchResults.Swap` (search_result.go:40-42); `none` is the out-of-range panic. -/
def swap (r : SearchResults) (i j : Nat) : Option SearchResults :=
  match r[i]?, r[j]? with
  | some a, some b => some ((r.set i b).set j a)
  | _, _ => none

end SearchResults

/-- An algorithm that uses only the methods of `sort.Interface`. -/
inductive SortProg where
  | done
  | less (i j : Nat) (k : Bool → SortProg)
  | swap (i j : Nat) (k : SortProg)

/-- Its effect on the slice; `none` is a panic. -/
def SortProg.run : SortProg → SearchResults → Option SearchResults
  | .done, r => some r
  | .less i j k, r =>
    match SearchResults.less r i j with
    | some b => (k b).run r
    | none => none
  | .swap i j k, r =>
    match SearchResults.swap r i j with
    | some r => k.run r
    | none => none

/-- `sort.Sort(data)` with the given algorithm, which first asks for `data.Len()`.  A panic leaves the
slice as it was (`SortsInPlace` excludes it). -/
def sortWith (alg : Nat → SortProg) (r : SearchResults) : SearchResults :=
  ((alg (SearchResults.len r)).run r).getD r

/-- The inner loop of `insertionSort` (package `sort`):
`for j := i; j > a && data.Less(j, j-1); j-- { data.Swap(j, j-1) }` with `a = 0`, then `k`. -/
def siftDown (k : SortProg) : Nat → SortProg
  | 0 => k
  | j + 1 => .less (j + 1) j fun b => if b then .swap (j + 1) j (siftDown k j) else k

/-- The outer loop: `for i := a + 1; i < b; i++`, with `n` iterations left. -/
def insertionFrom (i : Nat) : Nat → SortProg
  | 0 => .done
  | n + 1 => siftDown (insertionFrom (i + 1) n) i

/-- `insertionSort(data, 0, n)`, which `sort.Sort` uses for up to 12 elements. -/
def insertionSort (n : Nat) : SortProg := insertionFrom 1 (n - 1)

end Visigoth
