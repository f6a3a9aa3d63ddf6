/-!
# Go maps

A Go `map[K]V` is an association list.  Operations keep keys unique (`GoMap.nodup_*` in
`Proofs/GoMap.lean`); the order of the list is *not* Go's iteration order, iteration order is a
separate choice of the runtime wherever a map is ranged over.
-/
namespace Visigoth

abbrev GoMap (K V : Type) := List (K × V)

namespace GoMap
variable {K V : Type} [DecidableEq K]

/-- `v, ok := m[k]`. -/
def get : GoMap K V → K → Option V
  | [], _ => none
  | (k', v) :: m, k => if k' = k then some v else get m k

/-- `m[k] = v`. -/
def set : GoMap K V → K → V → GoMap K V
  | [], k, v => [(k, v)]
  | (k', v') :: m, k, v => if k' = k then (k, v) :: m else (k', v') :: set m k v

/-- `delete(m, k)`. -/
def delete (m : GoMap K V) (k : K) : GoMap K V := m.filter fun e => !decide (e.1 = k)

/-- The keys of a map. -/
def keys (m : GoMap K V) : List K := m.map (·.1)

end GoMap
end Visigoth
