import Verif.Model.Entities
import Verif.Model.Analyze
/-!
# Specification of the size of an index and of the cost of putting documents

In terms of the requests put, not of the index.
-/
namespace Visigoth

/-- The number of different elements of a list. -/
def different (l : List Str) : Nat := l.eraseDups.length

/-- The number of requests whose statement contains the token. -/
def docsWith (tok : Tokenizer) (rs : List DocRequest) (t : Str) : Nat :=
  rs.countP fun r => decide (t ∈ tok r.statement)

/-- All tokens of all the requests, repetitions included. -/
def allTokens (tok : Tokenizer) (rs : List DocRequest) : List Str := rs.flatMap fun r => tok r.statement

/-- The pairs of a request and a token of it. -/
def pairs (tok : Tokenizer) (rs : List DocRequest) : Nat :=
  (rs.map fun r => different (tok r.statement)).sum

/-- What it costs to put a request after others: for each token of the statement, repetitions included,
the number of earlier requests with it, and one more for each repetition. -/
def putCost (tok : Tokenizer) (rs : List DocRequest) (r : DocRequest) : Nat :=
  ((tok r.statement).map (docsWith tok rs)).sum + ((tok r.statement).length - different (tok r.statement))

/-- What it costs to put the requests one after the other, `done` being those already put. -/
def buildCost (tok : Tokenizer) (done : List DocRequest) : List DocRequest → Nat
  | [] => 0
  | r :: rs => putCost tok done r + buildCost tok (done ++ [r]) rs

end Visigoth
