import Verif.Model.Width
import Verif.Spec.Indexer
import Verif.Spec.Index
/-! # Right hit counts -/
namespace Visigoth

/-- The same result, with the number of hits as an `int`. -/
def SearchResult.asInt (r : SearchResult) : IntResult := { document := r.document, hits := r.hits }

/-- `HitsSearch` with `int`s of `w` bits answers as `HitsSearch` with numbers does. -/
def RightHits (w : Nat) (sort : List IntResult → List IntResult) (tokens : List Str) (ix : Indexer) : Prop :=
  ∃ sort', SortContract sort' ∧
    hitsSearchInt w sort tokens ix = (hitsSearch sort' tokens ix).map fun l => l.map SearchResult.asInt

/-- The documents that are met under the tokens of a query, one entry for each time. -/
def Indexer.met (ix : Indexer) (tokens : List Str) : Option (List Doc) := ix.docsAt (tokens.flatMap ix.listed)

/-- No document of the index has its hash met more often than an `int` of `w` bits can count. -/
def Indexer.Countable (ix : Indexer) (w : Nat) (tokens : List Str) : Prop :=
  ∀ met, ix.met tokens = some met → ∀ i, i < ix.len → ∀ d, ix.document i = some d →
    met.countP (fun e => decide (e.hash = d.hash)) < 2 ^ (w - 1)

end Visigoth
