import Verif.Model.Ask
import Verif.Spec.Index
/-!
# What the engines are expected to ask of an index
-/
namespace Visigoth

/-- The steps of `HitsSearch`: `Indexed` for every token in turn, each followed by `Document` for the
positions of the documents containing it; then `Len` and `Document` for every document of the index, and
`Len` once more. -/
def hitsSteps (tok : Tokenizer) (rs : List DocRequest) (tokens : List Str) : List Ask :=
  tokens.flatMap (fun t => .indexed t :: (positions tok rs t).map .document) ++
    (List.range rs.length).flatMap (fun i => [.len, .document i]) ++ [.len]

/-- The tokens asked for after `seen`: one more as long as some document contains all of those asked for so
far. -/
def askedFrom (tok : Tokenizer) (rs : List DocRequest) (seen : List Str) : List Str → List Str
  | [] => []
  | u :: us => u :: if rs.any (hasAll tok (seen ++ [u])) then askedFrom tok rs (seen ++ [u]) us else []

/-- The tokens `LinearSearch` asks for.  After the first token it stops only at a nil slice;
`nilEmpty` says whether `Indexed` returns nil for an unknown token. -/
def linearAsked (nilEmpty : Bool) (tok : Tokenizer) (rs : List DocRequest) : List Str → List Str
  | [] => []
  | t :: ts => t :: if nilEmpty && !rs.any (hasAll tok [t]) then [] else askedFrom tok rs [t] ts

/-- The positions of the documents containing all the tokens. -/
def matchPositions (tok : Tokenizer) (rs : List DocRequest) (tokens : List Str) : List Nat :=
  (List.range rs.length).filter fun i => (rs[i]?).any (hasAll tok tokens)

/-- Number of (token, document) pairs such that the document contains the token. -/
def postings (tok : Tokenizer) (rs : List DocRequest) (tokens : List Str) : Nat :=
  (tokens.map fun t => (rs.filter fun r => hasToken tok r t).length).sum

/-- The token of an `Indexed` call. -/
def Ask.token? : Ask → Option Str
  | .indexed t => some t
  | _ => none

/-- The position of a `Document` call. -/
def Ask.position? : Ask → Option Nat
  | .document i => some i
  | _ => none

end Visigoth
