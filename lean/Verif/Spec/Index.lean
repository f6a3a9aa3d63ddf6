import Verif.Model.Entities
import Verif.Model.Analyze
import Verif.Model.Search
/-!
# Specification of an index and of the search engines

An index is specified by the list of the requests put into it.
-/
namespace Visigoth

/-- The document a request leaves in an index: its name and its content. -/
def docOf (r : DocRequest) : Doc := { name := r.name, content := r.content }

/-- The request's statement contains the token. -/
def hasToken (tok : Tokenizer) (r : DocRequest) (t : Str) : Bool := decide (t ∈ tok r.statement)

/-- The request's statement contains all the tokens. -/
def hasAll (tok : Tokenizer) (tokens : List Str) (r : DocRequest) : Bool :=
  tokens.all fun t => hasToken tok r t

/-- The documents an AND query must return: those containing all the tokens, in insertion order,
each with the number of tokens as `Hits`; none for an empty query. -/
def andResults (tok : Tokenizer) (rs : List DocRequest) (tokens : List Str) : List SearchResult :=
  if tokens = [] then []
  else (rs.filter (hasAll tok tokens)).map fun r => { document := docOf r, hits := tokens.length }

/-- The requests whose document hashes to `h` and that contain a token, for every query token in
turn. -/
def occurrences (tok : Tokenizer) (rs : List DocRequest) (tokens : List Str) (h : HashKey) :
    List DocRequest :=
  tokens.flatMap fun t => rs.filter fun r => decide ((docOf r).hash = h) && hasToken tok r t

/-- What `HitsSearch` collects for the document of request `r`: the first occurrence of its hash and
the number of occurrences, if that number is positive and at least the number of tokens. -/
def hitsEntry (tok : Tokenizer) (rs : List DocRequest) (tokens : List Str) (r : DocRequest) :
    Option SearchResult :=
  match occurrences tok rs tokens (docOf r).hash with
  | [] => none
  | q :: qs =>
    if tokens.length ≤ (q :: qs).length then some { document := docOf q, hits := (q :: qs).length }
    else none

/-- What `HitsSearch` collects before sorting. -/
def hitsCollected (tok : Tokenizer) (rs : List DocRequest) (tokens : List Str) : List SearchResult :=
  rs.filterMap (hitsEntry tok rs tokens)

/-- No two requests have document IDs with the same hash (in particular all IDs are distinct). -/
def DistinctHashes (rs : List DocRequest) : Prop :=
  rs.Pairwise fun r r' => (docOf r).hash ≠ (docOf r').hash

/-- Positions of the requests containing a token, in increasing order. -/
def positions (tok : Tokenizer) (rs : List DocRequest) (t : Str) : List Nat :=
  (List.range rs.length).filter fun i => (rs[i]?).any fun r => hasToken tok r t

end Visigoth
