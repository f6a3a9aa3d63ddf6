import Verif.Model.GoString
/-!
# Documents, requests, hashes  (`entities_*.go`)
-/
namespace Visigoth

/-- `Doc` (entities_doc.go:3-6). -/
structure Doc where
  name : Str
  content : Str
deriving DecidableEq, Repr

/-- `NewDoc` (entities_doc.go:8-10). -/
def newDoc (name content : Str) : Doc := { name := name, content := content }

/-- `Doc.ID` (entities_doc.go:12-14). -/
def Doc.id (d : Doc) : Str := d.name

/-- `Doc.Raw` (entities_doc.go:16-18). -/
def Doc.raw (d : Doc) : Str := d.content

/-- `DocRequest` (entities_request.go:10-15); `MimeType` is a byte (entities_request.go:3).
The accessors `Mime` and `Statement` (entities_request.go:19-20) are the fields. -/
structure DocRequest where
  name : Str
  content : Str
  statement : Str
  mime : UInt8
deriving DecidableEq, Repr

/-- `MimeText` (entities_request.go:6). -/
def mimeText : UInt8 := 1
/-- `MimeJSON` (entities_request.go:7). -/
def mimeJSON : UInt8 := 2

/-- `DocRequest.ID` (entities_request.go:17). -/
def DocRequest.id (r : DocRequest) : Str := r.name
/-- `DocRequest.Raw` (entities_request.go:18). -/
def DocRequest.raw (r : DocRequest) : Str := r.content

/-- `NewDocRequest` (entities_request.go:22-29). -/
def newDocRequest (name content : Str) : DocRequest :=
  { name := name, content := content, mime := mimeText, statement := content }

/-- `NewDocRequestWith` (entities_request.go:31-38). -/
def newDocRequestWith (name content statement : Str) : DocRequest :=
  { name := name, content := content, mime := mimeText, statement := statement }

/-- `NewDocRequestWithMime` (entities_request.go:40-47). -/
def newDocRequestWithMime (name content : Str) (mime : UInt8) : DocRequest :=
  { name := name, content := content, mime := mime, statement := content }

/-- `HashKey` (entities_hash.go:9-11). -/
abbrev HashKey := UInt64

/-- `fnv.New64().Write`: FNV-1 (multiply, then xor), `hash/fnv` `sum64.Write`. -/
def fnvWrite (h : UInt64) (bs : Str) : UInt64 :=
  bs.foldl (fun h b => (h * 1099511628211) ^^^ b.toUInt64) h

/-- The FNV 64-bit offset basis. -/
def fnvOffset : UInt64 := 14695981039346656037

/-- `Doc.Hash` (entities_hash.go:13-18). -/
def Doc.hash (d : Doc) : HashKey := fnvWrite fnvOffset d.id

end Visigoth
