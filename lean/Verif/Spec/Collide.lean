import Verif.Spec.Index
/-!
# Documents whose IDs have the same hash
-/
namespace Visigoth

/-- The requests whose document hashes to `h` and that contain the token, in order of insertion. -/
def holders (tok : Tokenizer) (rs : List DocRequest) (h : HashKey) (t : Str) : List DocRequest :=
  rs.filter fun r => decide ((docOf r).hash = h) && hasToken tok r t

/-- Documents of one hash contain no tokens. -/
def CollidingEmpty (tok : Tokenizer) (rs : List DocRequest) : Prop :=
  rs.Pairwise fun q r => (docOf q).hash = (docOf r).hash → tok q.statement = [] ∧ tok r.statement = []

/-- Documents of one hash have no token in common. -/
def CollidingApart (tok : Tokenizer) (rs : List DocRequest) : Prop :=
  rs.Pairwise fun q r => (docOf q).hash = (docOf r).hash → ∀ t ∈ tok q.statement, t ∉ tok r.statement

/-- Among the documents of one hash the first one with a token is the same for all tokens. -/
def CollidingSame (tok : Tokenizer) (rs : List DocRequest) : Prop :=
  ∀ h t t' q q', (holders tok rs h t).head? = some q → (holders tok rs h t').head? = some q' → docOf q = docOf q'

/-- For this query: whenever two documents have one hash, the documents of that hash together contain
fewer tokens than the query. -/
def QueryApart (tok : Tokenizer) (rs : List DocRequest) (tokens : List Str) : Prop :=
  rs.Pairwise fun q r => (docOf q).hash = (docOf r).hash → (occurrences tok rs tokens (docOf q).hash).length < tokens.length

/-- The documents put later do not disturb those put before: a later document with a token has no hash
in common with earlier documents that have that token, or that share a token among them. -/
def LaterApart (tok : Tokenizer) (rs more : List DocRequest) : Prop :=
  ∀ r ∈ more, ∀ u ∈ tok r.statement,
    (∀ q ∈ rs, (docOf q).hash = (docOf r).hash → u ∉ tok q.statement) ∧
    rs.Pairwise fun q q' => (docOf q).hash = (docOf r).hash → (docOf q').hash = (docOf r).hash →
      ∀ t ∈ tok q.statement, t ∉ tok q'.statement

end Visigoth
