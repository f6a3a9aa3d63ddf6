import Verif.Model.Save
/-!
# Index values made outside the package  (`index_memory_index.go`)

`MemoryIndex` is exported with its fields `Docs` and `InvertedIndex`; `name` and `tokenizer` are not exported
(index_memory_index.go:11-18).  A user can call `NewMemoryIndex`, with any tokenizer or none, or write a literal, and
can assign to the exported fields afterwards.  Here the tokenizer is part of the value and may be nil, and the map may
be nil.

Simplifications: `Docs` and the posting lists are values (for sharing see `Model/Copies.lean`), and positions are not
negative.
-/
namespace Visigoth

/-- `MemoryIndex` (index_memory_index.go:11-18) with its tokenizer; `none` is a nil interface or a nil map. -/
structure OpenIndex where
  name : Str
  tok : Option Tokenizer
  docs : List Doc
  inverted : Option (GoMap Str (List Nat))

/-- How an index value comes into being. -/
inductive OpenStart where
  /-- `MemoryIndex{}` (index_memory_index.go:11-18). -/
  | literal
  /-- `NewMemoryIndex(name, tkr)` (index_memory_index.go:66-73). -/
  | new (name : Str) (tkr : Option Tokenizer)

/-- The new value (index_memory_index.go:11-18, 66-73). -/
def OpenStart.index : OpenStart → OpenIndex
  | .literal => { name := [], tok := none, docs := [], inverted := none }
  | .new name tkr => { name := name, tok := tkr, docs := [], inverted := some [] }

/-- `MemoryIndex.Len` (index_memory_index.go:20-22). -/
def OpenIndex.len (v : OpenIndex) : Nat := v.docs.length

/-- `MemoryIndex.Indexed` (index_memory_index.go:24-27): a nil map has no entries. -/
def OpenIndex.indexed (cp : CopyFn) (v : OpenIndex) (key : Str) : Option (List Nat) :=
  cp.copy (v.inverted.bind fun m => m.get key)

/-- `MemoryIndex.Document` (index_memory_index.go:29-31). -/
def OpenIndex.document (v : OpenIndex) (i : Nat) : Option Doc := v.docs[i]?

/-- The token loop of `Put` (index_memory_index.go:49-58); assigning to an entry of a nil map panics, `true`. -/
def fileTokens (next : Nat) : List Str → Option (GoMap Str (List Nat)) → Option (GoMap Str (List Nat)) × Bool
  | [], inv => (inv, false)
  | t :: ts, inv =>
    let indexedDocs := (inv.bind fun m => m.get t).getD []
    if next ∈ indexedDocs then fileTokens next ts inv
    else match inv with
      | none => (none, true)
      | some m => fileTokens next ts (some (m.set t (indexedDocs ++ [next])))

/-- `MemoryIndex.Put` (index_memory_index.go:44-60): the value it leaves, and whether it panics.  A nil tokenizer panics
before anything is stored (line 45). -/
def OpenIndex.put (v : OpenIndex) (payload : DocRequest) : OpenIndex × Bool :=
  match v.tok with
  | none => (v, true)
  | some tok =>
    let tokens := tok payload.statement
    let next := v.docs.length
    let docs := v.docs ++ [newDoc payload.id payload.raw]
    let (inverted, panicked) := fileTokens next tokens v.inverted
    ({ v with docs := docs, inverted := inverted }, panicked)

/-- A `*MemoryIndex` passed as `Indexer`. -/
def OpenIndex.indexer (cp : CopyFn) (v : OpenIndex) : Indexer :=
  { len := v.len, indexed := v.indexed cp, document := v.document }

/-- `MemoryIndex.Search` (index_memory_index.go:62-64); `none` is a panic. -/
def OpenIndex.search (cp : CopyFn) (v : OpenIndex) (payload : Str) (engine : Engine) : Option (List SearchResult) :=
  match v.tok with
  | none => none
  | some tok => engine (tok payload) (v.indexer cp)

/-- `json.Unmarshal(data, mi)` for a saved index (index_memory_index.go:16-17): a nil map is made first. -/
def OpenIndex.load (v : OpenIndex) (j : SavedIndex) : OpenIndex :=
  { v with
    docs := j.indexed
    inverted := some (j.inverted.foldl (fun m e => m.set e.1 e.2) (v.inverted.getD [])) }

/-- What a user does to an index: assignments to the exported fields (index_memory_index.go:16-17), `Put`, whose panic is
recovered, and `json.Unmarshal`. -/
inductive OpenStep where
  | docs (l : List Doc)
  | inverted (m : Option (GoMap Str (List Nat)))
  | put (r : DocRequest)
  | load (j : SavedIndex)

/-- The effect of one step (index_memory_index.go:16-17, 44-60). -/
def OpenIndex.step (v : OpenIndex) : OpenStep → OpenIndex
  | .docs l => { v with docs := l }
  | .inverted m => { v with inverted := m }
  | .put r => (v.put r).1
  | .load j => v.load j

/-- The value after a history (index_memory_index.go:11-18, 44-73). -/
def makeIndex (start : OpenStart) (steps : List OpenStep) : OpenIndex := steps.foldl OpenIndex.step start.index

end Visigoth
