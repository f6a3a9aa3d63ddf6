import Verif.Model.Index
/-!
# Saving an index as JSON  (`index_memory_index.go`, `entities_doc.go`)

`MemoryIndex` and `Doc` have JSON tags on their exported fields (index_memory_index.go:10-18, entities_doc.go:3-6),
and no methods of their own for it (the generated code in `search_result_easyjson.go` is for `SearchResult`), so
`json.Marshal(mi)` and `json.Unmarshal(data, mi)` of `encoding/json` go by the fields.  The name and the tokenizer
are not exported and are not saved.

`encoding/json` is not part of the repository.  What is used of it: a string is written and read back with every
byte that is not UTF-8 replaced by U+FFFD; the entries of a map are written in some order (increasing, in fact);
reading replaces a slice, and sets the entries of a map one by one, keeping those the map has already.
Simplification: the saved text is given by its contents, not by its bytes (for those of a `SearchResult` see
`Model/JsonText.lean`).
-/
namespace Visigoth

/-- The fields of a saved `MemoryIndex` (index_memory_index.go:16-17), the map as the list of its entries. -/
structure SavedIndex where
  indexed : List Doc
  inverted : List (Str × List Nat)
deriving DecidableEq, Repr

/-- A string after it has been written and read by `encoding/json`. -/
def jsonString (s : Str) : Str := mapStr id s

/-- The same for a document (entities_doc.go:3-6). -/
def jsonDoc (d : Doc) : Doc := { name := jsonString d.name, content := jsonString d.content }

/-- `json.Marshal(mi)` (index_memory_index.go:10-18), with the map written in the order `order` of its keys. -/
def MemoryIndex.save (order : List Str → List Str) (mi : MemoryIndex) : SavedIndex :=
  { indexed := mi.docs.map jsonDoc
    inverted := (order mi.inverted.keys).map fun t => (jsonString t, (mi.inverted.get t).getD []) }

/-- `json.Unmarshal(data, mi)` (index_memory_index.go:10-18). -/
def MemoryIndex.load (mi : MemoryIndex) (j : SavedIndex) : MemoryIndex :=
  { mi with
    docs := j.indexed
    inverted := j.inverted.foldl (fun m e => m.set e.1 e.2) mi.inverted }

end Visigoth
