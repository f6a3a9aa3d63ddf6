import Verif.Spec.Json
/-!
# What reading a JSON text leaves behind, also when it fails
-/
namespace Visigoth

/-- The document after reading the fields in order, up to and including the first one of the wrong type,
which counts as the empty string. -/
def leftDoc : List (Str × Json) → Doc → Doc
  | [], d => d
  | (k, v) :: fs, d =>
    if v.isNull then leftDoc fs d
    else if k = "id".toUTF8.toList then
      match asString v with
      | some s => leftDoc fs { d with name := s }
      | none => { d with name := [] }
    else if k = "raw".toUTF8.toList then
      match asString v with
      | some s => leftDoc fs { d with content := s }
      | none => { d with content := [] }
    else leftDoc fs d

/-- The result after reading the fields in order, up to and including the first one of the wrong type: a
`hits` that is not an integer counts as zero, a `doc` that is not an object changes nothing, and the fields of
an object with a field of the wrong type are read up to that one. -/
def leftResult : List (Str × Json) → JsonResult → JsonResult
  | [], r => r
  | (k, v) :: fs, r =>
    if v.isNull then leftResult fs r
    else if k = "doc".toUTF8.toList then
      match asObject v with
      | some gs =>
        if (readDoc gs r.document).isSome then leftResult fs { r with document := leftDoc gs r.document }
        else { r with document := leftDoc gs r.document }
      | none => r
    else if k = "hits".toUTF8.toList then
      match asInt v with
      | some n => leftResult fs { r with hits := n }
      | none => { r with hits := 0 }
    else leftResult fs r

/-- A separator where one is due. -/
def sepToks (first : Bool) : List Tok := if first then [] else [.comma]

/-- The fields of a text that need not be JSON (after the opening brace): all complete fields from the
start and, if another name follows, that name with whatever `torn` makes of the text after it. -/
def FieldsOf (torn : Str → List Tok → Json → Prop) (first : Bool) (data : List Tok) (fs : List (Str × Json)) : Prop :=
  ∃ good tail, data = Json.toksFields first good ++ tail ∧
    ((fs = good ∧ ¬ ∃ k rest, tail = sepToks (first && good.isEmpty) ++ .str k :: rest) ∨
     (∃ k rest v, tail = sepToks (first && good.isEmpty) ++ .str k :: rest ∧
        (¬ ∃ (w : Json) (rest' : List Tok), rest = .colon :: (w.toks ++ rest')) ∧ torn k rest v ∧ fs = good ++ [(k, v)]))

/-- What a name counts as when no value follows it: a value of the wrong type, except that a null counts as
null even without the colon. -/
def standIn (rest : List Tok) : Json := if rest.head? = some .null then .null else .bool false

def NoValue (_k : Str) (rest : List Tok) (v : Json) : Prop := v = standIn rest

/-- No value follows the name: if it is `doc` and an object begins, the fields of that object count. -/
def TornDoc (k : Str) (rest : List Tok) (v : Json) : Prop :=
  if k = "doc".toUTF8.toList ∧ [.colon, .lbrace] <+: rest then
    ∃ gs, v = .obj gs ∧ FieldsOf NoValue true (rest.drop 2) gs
  else v = standIn rest

/-- The fields of a search result in any text. -/
def ResultFields (data : List Tok) (fs : List (Str × Json)) : Prop :=
  match data with
  | .lbrace :: rest => FieldsOf TornDoc true rest fs
  | _ => fs = []

/-- The fields name nothing that is stored: nulls, unknown names, and `doc` objects with nothing but nulls
and unknown names. -/
def NamesNothing (fs : List (Str × Json)) : Prop :=
  fieldValues "hits" fs = [] ∧
    ∀ v ∈ fieldValues "doc" fs, ∃ gs, v = .obj gs ∧ fieldValues "id" gs = [] ∧ fieldValues "raw" gs = []

end Visigoth
