import Verif.Model.OpenIndex
import Verif.Spec.Indexer
/-! # Index values made outside the package -/
namespace Visigoth

/-- The positions filed under a token. -/
def OpenIndex.filed (v : OpenIndex) (t : Str) : List Nat := (v.inverted.bind fun m => m.get t).getD []

/-- Only documents that there are are filed. -/
def OpenIndex.sound (v : OpenIndex) : Prop := ∀ t, ∀ i ∈ v.filed t, i < v.docs.length

/-- `Put` and `Search` can be called: none of them panics, whatever is put or searched for, with any engine of the
package. -/
def OpenIndex.works (v : OpenIndex) : Prop :=
  (∀ r, (v.put r).2 = false) ∧
  ∀ (cp : CopyFn) (payload : Str) (sort : List SearchResult → List SearchResult),
    v.search cp payload linearSearch ≠ none ∧ v.search cp payload (hitsSearch sort) ≠ none ∧
    v.search cp payload noopAllSearch ≠ none ∧ v.search cp payload noopZeroSearch ≠ none

end Visigoth
