import Verif.Model.JsonEasy
import Verif.Spec.Json
/-!
# What an element of a larger JSON text means
-/
namespace Visigoth

/-- The value of a result read over a previous one: null changes nothing, an object is read, anything else is
an error. -/
def readValue (v : Json) (r : JsonResult) : Option JsonResult :=
  match v with
  | .null => some r
  | .obj fs => readResult fs r
  | _ => none

/-- All elements of an array. -/
def readItems : List Json → Option (List JsonResult)
  | [] => some []
  | v :: vs =>
    match readValue v zeroResult, readItems vs with
    | some r, some rs => some (r :: rs)
    | _, _ => none

/-- The lexer is inside a text and the next value is `v`, with `rest` behind it.  Its first token may be current
already; if it is not, a separator may have to be skipped. -/
def Lexer.atValue (l : Lexer) (v : Json) (rest : List Tok) : Prop :=
  l.started = true ∧ l.failed = false ∧
    ((l.wantSep = none ∧ (∃ t, l.tok = some t ∧ t :: l.data = v.toks ++ rest) ∧ (asObject v ≠ none → l.first = true)) ∨
     (l.wantSep = none ∧ l.tok = none ∧ l.data = v.toks ++ rest) ∨
     (∃ s, (s = .comma ∨ s = .colon) ∧ l.wantSep = some s ∧ l.tok = none ∧ l.data = s :: (v.toks ++ rest)))

/-- The lexer is right behind a value, without an error. -/
def Lexer.behind (l : Lexer) (rest : List Tok) : Prop :=
  l.started = true ∧ l.failed = false ∧ l.tok = none ∧ l.wantSep = none ∧ l.data = rest

end Visigoth
