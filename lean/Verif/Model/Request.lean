import Verif.Model.Entities
/-!
# Making a request outside the package  (`entities_request.go`)

`DocRequest` is exported with its fields `Name`, `Content` and `MimeType`; the field `statement` is not exported
(entities_request.go:10-15).  A user can call one of the three constructors or write a literal, and can assign to the
exported fields afterwards.
-/
namespace Visigoth

/-- How a request comes into being. -/
inductive RequestStart where
  /-- `DocRequest{}`; a literal with fields is this one with assignments (entities_request.go:10-15). -/
  | literal
  /-- `NewDocRequest(name, content)` (entities_request.go:22-29). -/
  | new (name content : Str)
  /-- `NewDocRequestWith(name, content, statement)` (entities_request.go:31-38). -/
  | newWith (name content statement : Str)
  /-- `NewDocRequestWithMime(name, content, mime)` (entities_request.go:40-47). -/
  | newWithMime (name content : Str) (mime : UInt8)
deriving Repr

/-- Assignments to the exported fields (entities_request.go:11, 12, 14). -/
inductive RequestAssign where
  | name (s : Str)
  | content (s : Str)
  | mime (m : UInt8)
deriving DecidableEq, Repr

/-- The request as it comes into being (entities_request.go:10-47). -/
def RequestStart.request : RequestStart → DocRequest
  | .literal => { name := [], content := [], statement := [], mime := 0 }
  | .new name content => newDocRequest name content
  | .newWith name content statement => newDocRequestWith name content statement
  | .newWithMime name content mime => newDocRequestWithMime name content mime

/-- One assignment (entities_request.go:11, 12, 14). -/
def DocRequest.assign (r : DocRequest) : RequestAssign → DocRequest
  | .name s => { r with name := s }
  | .content s => { r with content := s }
  | .mime m => { r with mime := m }

/-- A request made by a user of the package (entities_request.go:10-47). -/
def makeRequest (start : RequestStart) (as : List RequestAssign) : DocRequest := as.foldl DocRequest.assign start.request

end Visigoth
