import Verif.Spec.Ask
/-!
# The memory `LinearSearch` is expected to use
-/
namespace Visigoth

/-- Integers allocated after the tokens `seen`, when those left to ask for are given: the copy of the positions of the
next token, and for the intersection as many as the longer of the two lists has.  If `Indexed` returns nil for an
unknown token (`nilEmpty`), nothing is allocated for it. -/
def laterCells (nilEmpty : Bool) (tok : Tokenizer) (rs : List DocRequest) (seen : List Str) : List Str → Nat
  | [] => 0
  | u :: us =>
    if nilEmpty && !rs.any (hasAll tok [u]) then 0
    else
      (matchPositions tok rs [u]).length + max (matchPositions tok rs seen).length (matchPositions tok rs [u]).length +
        laterCells nilEmpty tok rs (seen ++ [u]) us

/-- Integers allocated by `LinearSearch`, given the tokens it asks for. -/
def linearCells (nilEmpty : Bool) (tok : Tokenizer) (rs : List DocRequest) : List Str → Nat
  | [] => 0
  | t :: ts => (matchPositions tok rs [t]).length + laterCells nilEmpty tok rs [t] ts

/-- The README's I: the sizes of the sets of documents containing the first token, the first two, and so on. -/
def intersectionSizes (tok : Tokenizer) (rs : List DocRequest) (seen : List Str) : List Str → Nat
  | [] => 0
  | u :: us => (matchPositions tok rs (seen ++ [u])).length + intersectionSizes tok rs (seen ++ [u]) us

end Visigoth
