import Verif.Model.Json
/-!
# JSON values and what decoding a search result means
-/
namespace Visigoth

/-- JSON values. An object is its list of fields, in textual order, names possibly repeated. -/
inductive Json where
  | null
  | bool (b : Bool)
  | num (n : Option Int)
  | str (s : Str)
  | arr (vs : List Json)
  | obj (fs : List (Str × Json))

mutual
/-- The token sequence of a value. -/
def Json.toks : Json → List Tok
  | .null => [.null]
  | .bool b => [.bool b]
  | .num n => [.num n]
  | .str s => [.str s]
  | .arr vs => .lbrack :: (Json.toksItems true vs ++ [.rbrack])
  | .obj fs => .lbrace :: (Json.toksFields true fs ++ [.rbrace])
/-- Array elements, separated by commas. -/
def Json.toksItems : Bool → List Json → List Tok
  | _, [] => []
  | first, v :: vs => (if first then [] else [.comma]) ++ v.toks ++ Json.toksItems false vs
/-- Object fields, separated by commas. -/
def Json.toksFields : Bool → List (Str × Json) → List Tok
  | _, [] => []
  | first, (k, v) :: fs =>
    (if first then [] else [.comma]) ++ [.str k, .colon] ++ v.toks ++ Json.toksFields false fs
end

def Json.isNull : Json → Bool
  | .null => true
  | _ => false

/-- The non-null values of the fields called `k`, in order. -/
def fieldValues (k : String) (fs : List (Str × Json)) : List Json :=
  (fs.filter fun f => f.1 = k.toUTF8.toList ∧ f.2.isNull = false).map (·.2)

def asString : Json → Option Str
  | .str s => some s
  | _ => none

def asInt : Json → Option Int
  | .num n => n
  | _ => none

def asObject : Json → Option (List (Str × Json))
  | .obj fs => some fs
  | _ => none

/-- The values if all have the right type. -/
def allOf {α : Type} (f : Json → Option α) : List Json → Option (List α)
  | [] => some []
  | v :: vs =>
    match f v, allOf f vs with
    | some a, some as => some (a :: as)
    | _, _ => none

/-- A document read from fields: the last non-null `id` and `raw`, or the previous ones; `none` if one
of them is not a string. -/
def readDoc (fs : List (Str × Json)) (d : Doc) : Option Doc :=
  match allOf asString (fieldValues "id" fs), allOf asString (fieldValues "raw" fs) with
  | some ids, some raws => some { name := ids.getLastD d.name, content := raws.getLastD d.content }
  | _, _ => none

/-- A search result read from fields: the fields of all non-null `doc` objects together, and the last
non-null `hits`. -/
def readResult (fs : List (Str × Json)) (r : JsonResult) : Option JsonResult :=
  match allOf asObject (fieldValues "doc" fs), allOf asInt (fieldValues "hits" fs) with
  | some docs, some hits =>
    match readDoc docs.flatten r.document with
    | some d => some { document := d, hits := hits.getLastD r.hits }
    | none => none
  | _, _ => none

/-- The contract of `json.Valid`, as far as it is needed: JSON text is valid. -/
def AcceptsJson (valid : List Tok → Bool) : Prop := ∀ v : Json, valid v.toks = true

/-- The other half of the contract of `json.Valid`: what is valid is JSON text. -/
def OnlyJson (valid : List Tok → Bool) : Prop := ∀ ts, valid ts = true → ∃ v : Json, ts = v.toks

end Visigoth
