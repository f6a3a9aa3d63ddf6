import Verif.Proofs.Calls
import Verif.Spec.Fine
/-!
# Names and documents

What is left of calls, return values and states when documents, queries, engines and the contents of indices
are forgotten.
-/
namespace Visigoth

/-- A call without its document, or its query and engine. -/
def Op.forget : Op → Op
  | .put n _ => .put n { name := [], content := [], statement := [], mime := 0 }
  | .search n _ _ => .search n [] noopZeroSearch
  | op => op

/-- A return value without search results and texts of indices. -/
def Ret.forget : Ret → Ret
  | .results _ => .results []
  | .text _ => .text []
  | r => r

/-- What became of a call, without search results and texts of indices. -/
def Status.forget : Status → Status
  | .returned r => .returned r.forget
  | st => st

/-- The same names stand for the same objects, the aliases list the same names, and the mutexes have the same
holders; the objects were made for the same names.  Their contents may differ. -/
structure SameNames (s s' : Shared) : Prop where
  indices : s'.indices = s.indices
  aliases : s'.aliases = s.aliases
  arrays : s'.arrays = s.arrays
  imu : s'.imu = s.imu
  amu : s'.amu = s.amu
  made : s'.heap.map (·.name) = s.heap.map (·.name)

/-- If the call is a search, its engine does not panic on an index built by `Put`. -/
def Op.noPanic (cfg : Cfg) : Op → Prop
  | .search _ _ e => EngineSafe cfg e
  | _ => True

end Visigoth
