import Verif.Model.Prog
/-!
# Copies of an index, and its exported fields  (`index_memory_index.go`)

`MemoryIndex` is an exported struct: a caller may copy it (`c := *mi`), and may assign to its exported fields
`Docs` and `InvertedIndex`.  Slices and maps are references, so that copies share them.  Here the arrays of
documents and the maps are explicit.

Simplifications: the posting lists are values, for a list is reached through one map only (`Indexed` hands out
copies); a caller assigns slices and maps that nobody else has; positions are not negative; the tokenizer is the
same for all indexes.
-/
namespace Visigoth

/-- `MemoryIndex` (index_memory_index.go:11-18): `inverted` is the number of the map, `none` the nil map. -/
structure IndexValue where
  name : Str
  docs : SliceRef
  inverted : Option Nat

/-- The arrays of documents, with their spare room, the maps, and the index variables of the program. -/
structure Copies where
  arrays : List (List Doc) := []
  maps : List (GoMap Str (List Nat)) := []
  values : List IndexValue := []

/-- A new array with these documents and some room (`grow`), and the slice of them. -/
def allocDocs (grow : Nat → Nat) (A : List (List Doc)) (l : List Doc) : List (List Doc) × SliceRef :=
  (A ++ [l ++ List.replicate (grow l.length) { name := [], content := [] }], { arr := A.length, len := l.length })

/-- `append(mi.Docs, newDoc)` (index_memory_index.go:48): in place when there is room, otherwise in a new array. -/
def appendDoc (grow : Nat → Nat) (A : List (List Doc)) (r : SliceRef) (d : Doc) : List (List Doc) × SliceRef :=
  let a := (A[r.arr]?).getD []
  if r.len < a.length then (A.set r.arr (a.set r.len d), { r with len := r.len + 1 })
  else allocDocs grow A (a.take r.len ++ [d])

/-- What a program does with indexes. -/
inductive CopyAct where
  /-- `NewMemoryIndex(name, tok)` (index_memory_index.go:66-73) -/
  | new (name : Str)
  /-- `c := *mi` -/
  | copy (v : Nat)
  /-- `mi.Put(r)` (index_memory_index.go:44-60); `grow` is the room the runtime gives to new arrays -/
  | put (grow : Nat → Nat) (v : Nat) (r : DocRequest)
  /-- `mi.Docs = ds` -/
  | setDocs (v : Nat) (ds : List Doc)
  /-- `mi.InvertedIndex = m` -/
  | setInverted (v : Nat) (m : Option (GoMap Str (List Nat)))

/-- `MemoryIndex.Put` (index_memory_index.go:44-60) of value number `v`, and whether it panics: an assignment to
an element of the nil map does (line 57).  Line 48 has been executed by then. -/
def Copies.put (tok : Tokenizer) (grow : Nat → Nat) (w : Copies) (v : Nat) (mi : IndexValue) (payload : DocRequest) :
    Copies × Bool :=
  let tokens := tok payload.statement
  let next := mi.docs.len
  let (A, docs) := appendDoc grow w.arrays mi.docs (newDoc payload.id payload.raw)
  let w := { w with arrays := A, values := w.values.set v { mi with docs := docs } }
  match mi.inverted with
  | none => (w, !tokens.isEmpty)
  | some p => ({ w with maps := w.maps.modify p fun inv => tokens.foldl (addPosting next) inv }, false)

/-- One statement, and whether it panics.  Statements about a variable that does not exist do nothing. -/
def Copies.step (tok : Tokenizer) (w : Copies) : CopyAct → Copies × Bool
  | .new name =>
    ({ arrays := w.arrays ++ [[]], maps := w.maps ++ [[]],
       values := w.values ++ [{ name := name, docs := { arr := w.arrays.length, len := 0 }, inverted := some w.maps.length }] },
     false)
  | .copy v =>
    match w.values[v]? with
    | none => (w, false)
    | some mi => ({ w with values := w.values ++ [mi] }, false)
  | .put grow v r =>
    match w.values[v]? with
    | none => (w, false)
    | some mi => w.put tok grow v mi r
  | .setDocs v ds =>
    match w.values[v]? with
    | none => (w, false)
    | some mi =>
      ({ w with arrays := w.arrays ++ [ds], values := w.values.set v { mi with docs := { arr := w.arrays.length, len := ds.length } } },
       false)
  | .setInverted v m =>
    match w.values[v]? with
    | none => (w, false)
    | some mi =>
      match m with
      | none => ({ w with values := w.values.set v { mi with inverted := none } }, false)
      | some m =>
        ({ w with maps := w.maps ++ [m], values := w.values.set v { mi with inverted := some w.maps.length } }, false)

/-- A program; a panic ends the statement only (the program may recover). -/
def Copies.run (tok : Tokenizer) (w : Copies) (acts : List CopyAct) : Copies := acts.foldl (fun w a => (w.step tok a).1) w

/-- The fields of an index variable, read through its references.  A nil map reads as an empty one. -/
def Copies.fields (w : Copies) (mi : IndexValue) : MemoryIndex :=
  { name := mi.name
    docs := ((w.arrays[mi.docs.arr]?).getD []).take mi.docs.len
    inverted := (mi.inverted.bind fun p => w.maps[p]?).getD [] }

/-- Value number `v` passed to an engine as an `Indexer`; `none` if there is no such variable. -/
def Copies.index (w : Copies) (v : Nat) : Option MemoryIndex := (w.values[v]?).map w.fields

end Visigoth
