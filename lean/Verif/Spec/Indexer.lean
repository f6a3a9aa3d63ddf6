import Verif.Model.Search
/-!
# What a search engine makes of any index

`Indexer` (search_search.go:15-19) is an exported interface and an engine is a function of it, so a
caller may search an index of their own.  These definitions say what the engines then answer, in terms of
the three methods only.
-/
namespace Visigoth

/-- What the index lists under the token; a nil slice lists nothing. -/
def Indexer.listed (ix : Indexer) (t : Str) : List Nat := (ix.indexed t).getD []

/-- The documents at these positions, or `none` if one of them does not exist. -/
def Indexer.docsAt (ix : Indexer) : List Nat → Option (List Doc)
  | [] => some []
  | i :: rest =>
    match ix.document i, ix.docsAt rest with
    | some d, some ds => some (d :: ds)
    | _, _ => none

/-- The index keeps the contract of `MemoryIndex` as far as the query is concerned: documents exist up to
the length, and what is listed under a token of the query are positions of documents in increasing
order. -/
structure Indexer.Lawful (ix : Indexer) (tokens : List Str) : Prop where
  docs : ∀ i, i < ix.len → ∃ d, ix.document i = some d
  sorted : ∀ t ∈ tokens, (ix.listed t).Pairwise (· < ·)
  within : ∀ t ∈ tokens, ∀ i ∈ ix.listed t, i < ix.len

/-- No two documents of the index have the same hash. -/
def Indexer.DistinctDocs (ix : Indexer) : Prop :=
  ∀ i j, i < ix.len → j < ix.len → ∀ d e, ix.document i = some d → ix.document j = some e →
    d.hash = e.hash → i = j

/-- The right answer: the documents listed under every token of the query, in the order of their positions,
with as many hits as the query has tokens; nothing for a query without tokens. -/
def Indexer.answers (ix : Indexer) (tokens : List Str) : List SearchResult :=
  if tokens = [] then [] else
    ((List.range ix.len).filter fun i => decide (∀ t ∈ tokens, i ∈ ix.listed t)).filterMap fun i =>
      (ix.document i).map fun d => { document := d, hits := tokens.length }

/-- What a list of documents says about a hash: the first document with it, and how many there are. -/
def tally (ds : List Doc) (h : HashKey) : Option SearchResult :=
  (ds.find? fun d => decide (d.hash = h)).map fun d =>
    { document := d, hits := ds.countP fun e => decide (e.hash = h) }

/-- What `HitsSearch` collects in an index whose documents are `all`, having met the documents `met` under
the tokens of a query of `n` tokens. -/
def collected (met all : List Doc) (n : Nat) : List SearchResult :=
  all.filterMap fun d => (tally met d.hash).filter fun r => decide (n ≤ r.hits)

end Visigoth
