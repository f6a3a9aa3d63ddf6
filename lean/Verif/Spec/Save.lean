import Verif.Model.Save
import Verif.Spec.Text
/-! # Saved indexes -/
namespace Visigoth

/-- Two indexes hold the same documents, and the same posting lists. -/
def SameIndex (a b : MemoryIndex) : Prop := a.docs = b.docs ∧ ∀ t, a.inverted.get t = b.inverted.get t

/-- All strings that come from the requests are UTF-8: names, contents, tokens. -/
def AllUTF8 (tok : Tokenizer) (rs : List DocRequest) : Prop :=
  ∀ r ∈ rs, ValidUTF8 r.name ∧ ValidUTF8 r.content ∧ ∀ t ∈ tok r.statement, ValidUTF8 t

/-- An order of map entries. -/
def IsOrder (order : List Str → List Str) : Prop := ∀ l, (order l).Perm l

end Visigoth
