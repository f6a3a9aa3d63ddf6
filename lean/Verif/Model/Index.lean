import Verif.Model.Search
import Verif.Model.Analyze
/-!
# The in-memory index  (`index_memory_index.go`)
-/
namespace Visigoth

/-- `MemoryIndex` (index_memory_index.go:11-18).  Simplification: the tokenizer field is an argument
of the functions that use it (it never changes after construction). -/
structure MemoryIndex where
  name : Str
  docs : List Doc
  inverted : GoMap Str (List Nat)
deriving DecidableEq, Repr

/-- `NewMemoryIndex` (index_memory_index.go:66-73). -/
def newMemoryIndex (name : Str) : MemoryIndex := { name := name, docs := [], inverted := [] }

/-- `MemoryIndex.Len` (index_memory_index.go:20-22). -/
def MemoryIndex.len (mi : MemoryIndex) : Nat := mi.docs.length

/-- `MemoryIndex.Document` (index_memory_index.go:29-31); `none` is the out-of-range panic. -/
def MemoryIndex.document (mi : MemoryIndex) (i : Nat) : Option Doc := mi.docs[i]?

/-- `slices.Copy` of the vago library (not in the repository): a copy with the same contents;
whether the copy of a nil slice (`none`) is nil is left open. -/
structure CopyFn where
  copy : Option (List Nat) → Option (List Nat)
  contents : ∀ d, (copy d).getD [] = d.getD []

/-- `MemoryIndex.Indexed` (index_memory_index.go:24-27). -/
def MemoryIndex.indexed (cp : CopyFn) (mi : MemoryIndex) (key : Str) : Option (List Nat) :=
  cp.copy (mi.inverted.get key)

/-- One iteration of the token loop of `Put` (index_memory_index.go:50-58); a missing map entry reads
as the nil slice. -/
def addPosting (next : Nat) (inv : GoMap Str (List Nat)) (tok : Str) : GoMap Str (List Nat) :=
  let indexedDocs := (inv.get tok).getD []
  if next ∈ indexedDocs then inv          -- `continue tokenLoop`
  else inv.set tok (indexedDocs ++ [next])

/-- `MemoryIndex.Put` (index_memory_index.go:44-60). -/
def MemoryIndex.put (tok : Tokenizer) (mi : MemoryIndex) (payload : DocRequest) : MemoryIndex :=
  let tokens := tok payload.statement
  let next := mi.docs.length
  { mi with
    docs := mi.docs ++ [newDoc payload.id payload.raw]
    inverted := tokens.foldl (addPosting next) mi.inverted }

/-- The bytes of an ASCII string literal of the source. -/
def lit (s : String) : Str := s.toList.map fun c => UInt8.ofNat c.toNat

/-- The digits of a number, least significant first; `fuel` bounds their number. -/
def digitsRev : Nat → Nat → Str
  | 0, _ => []
  | fuel + 1, n =>
    if n < 10 then [UInt8.ofNat (0x30 + n)] else UInt8.ofNat (0x30 + n % 10) :: digitsRev fuel (n / 10)

/-- `%d` and `%v` of a non-negative `int` (package `fmt`, not in the repository). -/
def fmtNat (n : Nat) : Str := (digitsRev (n + 1) n).reverse

/-- `%v` of an `[]int`: the elements between brackets, separated by blanks. -/
def fmtNats : List Nat → Str
  | [] => lit "[]"
  | n :: ns => lit "[" ++ fmtNat n ++ ns.flatMap (fun m => lit " " ++ fmtNat m) ++ lit "]"

/-- The line `MemoryIndex.String` writes for one entry of the inverted index
(index_memory_index.go:38). -/
def fmtEntry (token : Str) (indexed : List Nat) : Str :=
  lit "\n\t[token=" ++ token ++ lit ",length=(" ++ fmtNat indexed.length ++ lit ")]=" ++ fmtNats indexed

/-- `MemoryIndex.String` (index_memory_index.go:33-42).  `order` is the order in which the runtime
iterates over the map. -/
def MemoryIndex.string (order : List Str → List Str) (mi : MemoryIndex) : Str :=
  lit "{\n" ++ (lit "\tname=" ++ mi.name) ++
    (order mi.inverted.keys).flatMap (fun token => fmtEntry token ((mi.inverted.get token).getD [])) ++
    lit "\n}"

/-- A `*MemoryIndex` passed as `Indexer`. -/
def MemoryIndex.indexer (cp : CopyFn) (mi : MemoryIndex) : Indexer :=
  { len := mi.len, indexed := mi.indexed cp, document := mi.document }

/-- `MemoryIndex.Search` (index_memory_index.go:62-64). -/
def MemoryIndex.search (cp : CopyFn) (tok : Tokenizer) (mi : MemoryIndex) (payload : Str)
    (engine : Engine) : Option (List SearchResult) :=
  engine (tok payload) (mi.indexer cp)

/-- The index after a history of `Put` calls on a new index. -/
def buildIndex (tok : Tokenizer) (name : Str) (rs : List DocRequest) : MemoryIndex :=
  rs.foldl (MemoryIndex.put tok) (newMemoryIndex name)

end Visigoth
