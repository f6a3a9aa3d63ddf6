import Verif.Model.JsonText
/-!
# Search results inside larger JSON  (`MarshalEasyJSON`, `UnmarshalEasyJSON`)

The methods that other easyjson code calls for a part of its own text.  The writer is the bytes written so
far; the generated encoders only append to it.
-/
namespace Visigoth

/-- `easyjsonBb771ebaEncodeGithubComSoniricoVisigoth1` on a writer (search_result_easyjson.go:127-142). -/
def encodeDocInto (plain : UInt8 → Bool) (out : Str) (d : Doc) : Str :=
  let out := out ++ lit "{"
  let out := out ++ (lit ",\"id\":").drop 1
  let out := out ++ writeString plain d.name
  let out := out ++ lit ",\"raw\":"
  let out := out ++ writeString plain d.content
  out ++ lit "}"

/-- `SearchResult.MarshalEasyJSON` (search_result_easyjson.go:78-81, 54-70). -/
def marshalEasyJSON (plain : UInt8 → Bool) (w : Str) (r : JsonResult) : Str :=
  let out := w ++ lit "{"
  let out := out ++ (lit ",\"doc\":").drop 1
  let out := encodeDocInto plain out r.document
  let out := out ++ lit ",\"hits\":"
  let out := out ++ writeInt r.hits
  out ++ lit "}"

/-- `SearchResult.UnmarshalEasyJSON` (search_result_easyjson.go:90-93): the lexer and the receiver afterwards. -/
def unmarshalEasyJSON (valid : List Tok → Bool) (l : Lexer) (v : JsonResult) : Lexer × JsonResult :=
  decodeResult valid l v

/-! ## A caller: slices of results

The code that easyjson generates for a slice of results.  It is not in the repository. -/

/-- The receiver of every element. -/
def zeroResult : JsonResult := { document := { name := [], content := [] }, hits := 0 }

/-- `for !in.IsDelim(']') { var v SearchResult; v.UnmarshalEasyJSON(in); out = append(out, v); in.WantComma() }`. -/
def resultsLoop (valid : List Tok → Bool) : Nat → Lexer → List JsonResult → Lexer × List JsonResult
  | 0, l, out => (l, out)
  | fuel + 1, l, out =>
    let (done, l) := l.isDelim .rbrack
    if done then (l, out)
    else
      let (l, v) := unmarshalEasyJSON valid l zeroResult
      resultsLoop valid fuel l.wantComma (out ++ [v])

/-- `in.Delim('[')`, the loop, `in.Delim(']')`, `in.Consumed()`: whether it succeeds, and the slice. -/
def unmarshalSlice (valid : List Tok → Bool) (data : List Tok) : Bool × List JsonResult :=
  let l := Lexer.delim { data := data } .lbrack
  let (l, out) := resultsLoop valid (l.data.length + 1) l []
  (!(l.delim .rbrack).consumed.failed, out)

/-- `w.RawByte('[')`, the elements with `w.RawByte(',')` between them, `w.RawByte(']')`. -/
def marshalItems (plain : UInt8 → Bool) (first : Bool) (w : Str) : List JsonResult → Str
  | [] => w
  | r :: rs => marshalItems plain false (marshalEasyJSON plain (if first then w else w ++ lit ",") r) rs

def marshalSlice (plain : UInt8 → Bool) (rs : List JsonResult) : Str := marshalItems plain true (lit "[") rs ++ lit "]"

end Visigoth
