import Verif.Model.Search
/-!
# JSON encoding of search results  (`search_result_easyjson.go`)

The generated code drives `jlexer.Lexer` and `jwriter.Writer` of github.com/mailru/easyjson, which is
a dependency and not part of the repository.  They are modelled at the level of tokens: a string token
carries the Go string it stands for, a number token the integer it stands for (`none` if it is not a
decimal integer in range).  Escaping, number formatting and white space are in `Model/JsonText.lean`;
everything the generated code does (key dispatch, null handling, separators, loops, error propagation) is
here.
-/
namespace Visigoth

/-- Raw tokens of a JSON text. -/
inductive Tok where
  | lbrace | rbrace | lbrack | rbrack | colon | comma
  | str (s : Str)
  | num (n : Option Int)
  | bool (b : Bool)
  | null
deriving DecidableEq, Repr

/-- `SearchResult` as it is encoded, with `Hits` an integer (search_result.go:6-9). -/
structure JsonResult where
  document : Doc
  hits : Int
deriving DecidableEq, Repr

/-! ## `jlexer.Lexer` -/

/-- `jlexer.Lexer`: the remaining data, whether anything was read (`pos > 0`), the separator that must
come next, whether we are right after an opening delimiter, the current token, and whether a fatal
error has occurred. -/
structure Lexer where
  data : List Tok
  started : Bool := false
  wantSep : Option Tok := none
  first : Bool := false
  tok : Option Tok := none
  failed : Bool := false
deriving DecidableEq, Repr

def Lexer.fail (l : Lexer) : Lexer := { l with failed := true }

/-- `FetchToken`: skips the wanted separator, checks separators, and makes the next token current. -/
def Lexer.fetchFrom (l : Lexer) : List Tok → Lexer
  | [] => { l with data := [], failed := true }
  | .colon :: rest =>
    if l.wantSep = some .colon then { l with wantSep := none }.fetchFrom rest else l.fail
  | .comma :: rest =>
    if l.wantSep = some .comma then { l with wantSep := none }.fetchFrom rest else l.fail
  | .lbrace :: rest =>
    { l with data := rest, started := true, first := true, tok := some .lbrace
             failed := l.failed || l.wantSep.isSome }
  | .lbrack :: rest =>
    { l with data := rest, started := true, first := true, tok := some .lbrack
             failed := l.failed || l.wantSep.isSome }
  | .rbrace :: rest =>
    { l with data := rest, started := true, wantSep := none, tok := some .rbrace
             failed := l.failed || (!l.first && decide (l.wantSep ≠ some .comma)) }
  | .rbrack :: rest =>
    { l with data := rest, started := true, wantSep := none, tok := some .rbrack
             failed := l.failed || (!l.first && decide (l.wantSep ≠ some .comma)) }
  | t :: rest =>
    { l with data := rest, started := true, tok := some t, failed := l.failed || l.wantSep.isSome }

def Lexer.fetch (l : Lexer) : Lexer := l.fetchFrom l.data

/-- `if r.token.kind == tokenUndef && r.Ok() { r.FetchToken() }`, at the start of every method. -/
def Lexer.peek (l : Lexer) : Lexer := if l.tok = none ∧ l.failed = false then l.fetch else l

/-- `consume`. -/
def Lexer.consume (l : Lexer) : Lexer := { l with tok := none }

/-- `IsStart`. -/
def Lexer.isStart (l : Lexer) : Bool := !l.started

/-- `IsNull`. -/
def Lexer.isNull (l : Lexer) : Bool × Lexer := (decide (l.peek.tok = some .null), l.peek)

/-- `IsDelim`: also true after an error. -/
def Lexer.isDelim (l : Lexer) (c : Tok) : Bool × Lexer :=
  (l.peek.failed || decide (l.peek.tok = some c), l.peek)

/-- `Delim`. -/
def Lexer.delim (l : Lexer) (c : Tok) : Lexer :=
  if l.peek.failed || decide (l.peek.tok ≠ some c) then l.peek.consume.fail else l.peek.consume

/-- `Skip`. -/
def Lexer.skip (l : Lexer) : Lexer := l.peek.consume

/-- `WantComma`. -/
def Lexer.wantComma (l : Lexer) : Lexer := { l with wantSep := some .comma, first := false }

/-- `WantColon`. -/
def Lexer.wantColon (l : Lexer) : Lexer := { l with wantSep := some .colon, first := false }

/-- `String` and `UnsafeFieldName`: the empty string on a token of another kind, which is an error. -/
def Lexer.string (l : Lexer) : Str × Lexer :=
  if l.peek.failed then ([], l.peek.fail)
  else match l.peek.tok with
    | some (.str s) => (s, l.peek.consume)
    | _ => ([], l.peek.fail)

/-- `Int`: zero on a token of another kind or a number that is not an integer, which is an error. -/
def Lexer.int (l : Lexer) : Int × Lexer :=
  if l.peek.failed then (0, l.peek.fail)
  else match l.peek.tok with
    | some (.num (some n)) => (n, l.peek.consume)
    | some (.num none) => (0, l.peek.consume.fail)
    | _ => (0, l.peek.fail)

/-- The scan of `SkipRecursive`: counts delimiters of one kind only until the matching one; gives the
tokens skipped and those left. -/
def skipScan (op cl : Tok) : Nat → List Tok → List Tok → Option (List Tok × List Tok)
  | _, _, [] => none
  | level, acc, t :: rest =>
    if t = op then skipScan op cl (level + 1) (acc ++ [t]) rest
    else if t = cl then
      match level with
      | 0 => none
      | 1 => some (acc ++ [t], rest)
      | level + 2 => skipScan op cl (level + 1) (acc ++ [t]) rest
    else skipScan op cl level (acc ++ [t]) rest

/-- `SkipRecursive`.  `valid` is `json.Valid` of the standard library on the skipped text. -/
def Lexer.skipRecursive (valid : List Tok → Bool) (l : Lexer) : Lexer :=
  let l := l.peek
  let go (op cl : Tok) : Lexer :=
    match skipScan op cl 1 [op] l.data with
    | some (skipped, rest) =>
      if valid skipped then { l.consume with data := rest } else { l.consume with data := [], failed := true }
    | none => { l.consume with data := [], failed := true }
  match l.tok with
  | some .lbrace => go .lbrace .rbrace
  | some .lbrack => go .lbrack .rbrack
  | _ => l.consume

/-- `Consumed`: anything left is an error. -/
def Lexer.consumed (l : Lexer) : Lexer := if l.failed then l else if l.data = [] then l else l.fail

/-! ## The generated code -/

/-- The field loop of the `Doc` decoder (search_result_easyjson.go:104-121).  Every iteration reads at
least one token or fails, so as many iterations as there are tokens suffice. -/
def docLoop (valid : List Tok → Bool) : Nat → Lexer → Doc → Lexer × Doc
  | 0, l, out => (l, out)
  | fuel + 1, l, out =>
    let (done, l) := l.isDelim .rbrace
    if done then (l, out)
    else
      let (key, l) := l.string
      let l := l.wantColon
      let (isNull, l) := l.isNull
      if isNull then docLoop valid fuel l.skip.wantComma out
      else if key = "id".toUTF8.toList then
        let (v, l) := l.string
        docLoop valid fuel l.wantComma { out with name := v }
      else if key = "raw".toUTF8.toList then
        let (v, l) := l.string
        docLoop valid fuel l.wantComma { out with content := v }
      else docLoop valid fuel (l.skipRecursive valid).wantComma out

/-- `easyjsonBb771ebaDecodeGithubComSoniricoVisigoth1` (search_result_easyjson.go:94-126). -/
def decodeDoc (valid : List Tok → Bool) (l : Lexer) (out : Doc) : Lexer × Doc :=
  let isTopLevel := l.isStart
  let (isNull, l) := l.isNull
  if isNull then ((if isTopLevel then l.consumed else l).skip, out)
  else
    let l := l.delim .lbrace
    let (l, out) := docLoop valid (l.data.length + 1) l out
    let l := l.delim .rbrace
    (if isTopLevel then l.consumed else l, out)

/-- The field loop of the `SearchResult` decoder (search_result_easyjson.go:31-48). -/
def resultLoop (valid : List Tok → Bool) : Nat → Lexer → JsonResult → Lexer × JsonResult
  | 0, l, out => (l, out)
  | fuel + 1, l, out =>
    let (done, l) := l.isDelim .rbrace
    if done then (l, out)
    else
      let (key, l) := l.string
      let l := l.wantColon
      let (isNull, l) := l.isNull
      if isNull then resultLoop valid fuel l.skip.wantComma out
      else if key = "doc".toUTF8.toList then
        let (l, d) := decodeDoc valid l out.document
        resultLoop valid fuel l.wantComma { out with document := d }
      else if key = "hits".toUTF8.toList then
        let (v, l) := l.int
        resultLoop valid fuel l.wantComma { out with hits := v }
      else resultLoop valid fuel (l.skipRecursive valid).wantComma out

/-- `easyjsonBb771ebaDecodeGithubComSoniricoVisigoth` (search_result_easyjson.go:21-53). -/
def decodeResult (valid : List Tok → Bool) (l : Lexer) (out : JsonResult) : Lexer × JsonResult :=
  let isTopLevel := l.isStart
  let (isNull, l) := l.isNull
  if isNull then ((if isTopLevel then l.consumed else l).skip, out)
  else
    let l := l.delim .lbrace
    let (l, out) := resultLoop valid (l.data.length + 1) l out
    let l := l.delim .rbrace
    (if isTopLevel then l.consumed else l, out)

/-- `SearchResult.UnmarshalJSON` (search_result_easyjson.go:84-88): whether it succeeds, and the value
left in the receiver. -/
def unmarshal (valid : List Tok → Bool) (data : List Tok) (v : JsonResult) : Bool × JsonResult :=
  let (l, out) := decodeResult valid { data := data } v
  (!l.failed, out)

/-- `easyjsonBb771ebaEncodeGithubComSoniricoVisigoth1` (search_result_easyjson.go:127-142). -/
def encodeDoc (d : Doc) : List Tok :=
  [.lbrace, .str "id".toUTF8.toList, .colon, .str d.name, .comma, .str "raw".toUTF8.toList, .colon,
   .str d.content, .rbrace]

/-- `easyjsonBb771ebaEncodeGithubComSoniricoVisigoth` and `SearchResult.MarshalJSON`
(search_result_easyjson.go:54-76). -/
def marshal (r : JsonResult) : List Tok :=
  [.lbrace, .str "doc".toUTF8.toList, .colon] ++ encodeDoc r.document ++
    [.comma, .str "hits".toUTF8.toList, .colon, .num (some r.hits), .rbrace]

end Visigoth
