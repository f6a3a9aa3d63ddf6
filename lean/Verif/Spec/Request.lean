import Verif.Model.Request
import Verif.Model.Index
import Verif.Model.Search
/-! # Requests made outside the package -/
namespace Visigoth

/-- The text a request is made with: the last argument of `NewDocRequestWith`, the content given to the other
constructors, and none for a literal. -/
def RequestStart.text : RequestStart → Str
  | .literal => []
  | .new _ c => c
  | .newWith _ _ s => s
  | .newWithMime _ c _ => c

/-- The constructors that take the content for the text. -/
def RequestStart.plain : RequestStart → Prop
  | .new _ _ => True
  | .newWithMime _ _ _ => True
  | _ => False

/-- Put into any index, wherever among other requests, a request is found by searching for its content. -/
def FoundByContent (tok : Tokenizer) (r : DocRequest) : Prop :=
  tok r.content ≠ [] → ∀ (cp : CopyFn) (name : Str) (before after : List DocRequest), ∃ res,
    (buildIndex tok name (before ++ r :: after)).search cp tok r.content linearSearch = some res ∧
    { name := r.name, content := r.content } ∈ res.map (·.document)

end Visigoth
