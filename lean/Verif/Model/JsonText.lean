import Verif.Model.Json
import Verif.Model.Index
/-!
# JSON text  (`search_result_easyjson.go`, byte level)

`Model/Json.lean` works with tokens.  Here are the bytes: the strings and numbers that `jwriter.Writer`
writes for the generated encoder, and the tokens that `jlexer.Lexer` finds in a text.  Both belong to
github.com/mailru/easyjson, which is not part of the repository; the definitions follow its published
sources (`jwriter/writer.go`, `jlexer/lexer.go`) as remembered: they are not at hand.

Simplifications: a text is split into tokens before it is decoded.  For a text with a lexical error (an
unterminated string, an unknown escape, a malformed number, a stray character) the outcome is not
modelled: `lexAll` is `none`.
-/
namespace Visigoth

/-! ## `jwriter.Writer` -/

/-- `chars[n]` for `chars = "0123456789abcdef"`. -/
def hexDigit (n : Nat) : UInt8 := if n < 10 then UInt8.ofNat (0x30 + n) else UInt8.ofNat (0x57 + n)

/-- An escaped ASCII character: `\t`, `\r`, `\n`, `\\`, `\"`, otherwise `\u00` and two digits. -/
def escapeByte (c : UInt8) : Str :=
  if c = 0x09 then [0x5C, 0x74]
  else if c = 0x0D then [0x5C, 0x72]
  else if c = 0x0A then [0x5C, 0x6E]
  else if c = 0x5C then [0x5C, 0x5C]
  else if c = 0x22 then [0x5C, 0x22]
  else [0x5C, 0x75, 0x30, 0x30, hexDigit (c.toNat / 16), hexDigit (c.toNat % 16)]

/-- The loop of `Writer.String`: `plain` is the table of ASCII characters written as they are
(`htmlEscapeTable`); a byte that is not UTF-8 becomes `\ufffd`; U+2028 and U+2029 are escaped.  `fuel` bounds
the number of characters. -/
def escapeAux (plain : UInt8 → Bool) : Nat → Str → Str
  | 0, _ => []
  | _ + 1, [] => []
  | fuel + 1, c :: rest =>
    if c < 0x80 then (if plain c then [c] else escapeByte c) ++ escapeAux plain fuel rest
    else
      let (r, w) := decodeRune (c :: rest)
      if r = runeError ∧ w = 1 then lit "\\ufffd" ++ escapeAux plain fuel rest
      else if r = 0x2028 ∨ r = 0x2029 then
        lit "\\u202" ++ [hexDigit (r % 16)] ++ escapeAux plain fuel ((c :: rest).drop w)
      else (c :: rest).take w ++ escapeAux plain fuel ((c :: rest).drop w)

/-- `Writer.String`. -/
def writeString (plain : UInt8 → Bool) (s : Str) : Str := 0x22 :: escapeAux plain s.length s ++ [0x22]

/-- `Writer.Int` (`strconv.AppendInt`). -/
def writeInt : Int → Str
  | .ofNat n => fmtNat n
  | .negSucc n => 0x2D :: fmtNat (n + 1)

/-- `easyjsonBb771ebaEncodeGithubComSoniricoVisigoth1` (search_result_easyjson.go:127-142). -/
def encodeDocText (plain : UInt8 → Bool) (d : Doc) : Str :=
  lit "{" ++ lit "\"id\":" ++ writeString plain d.name ++ lit ",\"raw\":" ++ writeString plain d.content ++ lit "}"

/-- `easyjsonBb771ebaEncodeGithubComSoniricoVisigoth` and `SearchResult.MarshalJSON`
(search_result_easyjson.go:54-76). -/
def marshalText (plain : UInt8 → Bool) (r : JsonResult) : Str :=
  lit "{" ++ lit "\"doc\":" ++ encodeDocText plain r.document ++ lit ",\"hits\":" ++ writeInt r.hits ++ lit "}"

/-! ## `jlexer.Lexer` -/

/-- White space skipped by `FetchToken`. -/
def isSpace (b : UInt8) : Bool := b = 0x20 || b = 0x09 || b = 0x0D || b = 0x0A

/-- `isTokenEnd`. -/
def isTokenEnd (b : UInt8) : Bool :=
  isSpace b || b = 0x5B || b = 0x5D || b = 0x7B || b = 0x7D || b = 0x2C || b = 0x3A

/-- The value of a hexadecimal digit. -/
def hexValue (b : UInt8) : Option Nat :=
  if 0x30 ≤ b ∧ b ≤ 0x39 then some (b.toNat - 0x30)
  else if 0x61 ≤ b ∧ b ≤ 0x66 then some (b.toNat - 0x57)
  else if 0x41 ≤ b ∧ b ≤ 0x46 then some (b.toNat - 0x37)
  else none

/-- `getu4`, after the `\u`: four hexadecimal digits. -/
def getu4 : Str → Option (Nat × Str)
  | a :: b :: c :: d :: rest =>
    match hexValue a, hexValue b, hexValue c, hexValue d with
    | some x, some y, some z, some w => some (((x * 16 + y) * 16 + z) * 16 + w, rest)
    | _, _, _, _ => none
  | _ => none

/-- The second half of a surrogate pair (`utf16.DecodeRune`): the character and what follows, or U+FFFD for a
lone surrogate. -/
def pairWith (hi : Nat) (rest : Str) : Nat × Str :=
  match rest with
  | 0x5C :: 0x75 :: rest' =>
    match getu4 rest' with
    | some (lo, rest'') =>
      if hi < 0xDC00 ∧ 0xDC00 ≤ lo ∧ lo < 0xE000 then
        (0x10000 + (hi - 0xD800) * 0x400 + (lo - 0xDC00), rest'')
      else (runeError, rest)
    | none => (runeError, rest)
  | _ => (runeError, rest)

/-- `decodeEscape`, after the backslash: the character and what follows. -/
def decodeEscape : Str → Option (Nat × Str)
  | [] => none
  | c :: rest =>
    if c = 0x22 ∨ c = 0x2F ∨ c = 0x5C then some (c.toNat, rest)
    else if c = 0x62 then some (0x08, rest)
    else if c = 0x66 then some (0x0C, rest)
    else if c = 0x6E then some (0x0A, rest)
    else if c = 0x72 then some (0x0D, rest)
    else if c = 0x74 then some (0x09, rest)
    else if c = 0x75 then
      match getu4 rest with
      | some (r, rest) => if 0xD800 ≤ r ∧ r < 0xE000 then some (pairWith r rest) else some (r, rest)
      | none => none
    else none

/-- `unescapeStringToken`; `fuel` bounds the number of characters. -/
def unescape : Nat → Str → Option Str
  | _, [] => some []
  | 0, _ :: _ => none
  | fuel + 1, b :: rest =>
    if b = 0x5C then
      match decodeEscape rest with
      | some (r, rest) => (unescape fuel rest).map (encodeRune r ++ ·)
      | none => none
    else (unescape fuel rest).map (b :: ·)

/-- `findStringLen`: the text up to the closing quote, and what follows it.  (The Go code searches for quotes
and counts the backslashes before them.) -/
def scanString : Str → Option (Str × Str)
  | [] => none
  | b :: rest =>
    if b = 0x22 then some ([], rest)
    else if b = 0x5C then
      match rest with
      | [] => none
      | c :: rest => (scanString rest).map fun p => (b :: c :: p.1, p.2)
    else (scanString rest).map fun p => (b :: p.1, p.2)

def isDigit (b : UInt8) : Bool := 0x30 ≤ b && b ≤ 0x39

/-- The loop of `fetchNumber`, with its flags `hasE`, `afterE`, `hasDot`. -/
def scanNumber : Bool → Bool → Bool → Str → Option (Str × Str)
  | _, _, _, [] => some ([], [])
  | hasE, afterE, hasDot, c :: rest =>
    let more (hasE afterE hasDot : Bool) := (scanNumber hasE afterE hasDot rest).map fun p => (c :: p.1, p.2)
    if isDigit c then more hasE false hasDot
    else if c = 0x2E ∧ hasDot = false then more hasE afterE true
    else if (c = 0x65 ∨ c = 0x45) ∧ hasE = false then more true true true
    else if (c = 0x2B ∨ c = 0x2D) ∧ afterE = true then more hasE false hasDot
    else if isTokenEnd c then some ([], c :: rest)
    else none

/-- The value of digits. -/
def digitsValue (ds : Str) : Nat := ds.foldl (fun v d => 10 * v + (d.toNat - 0x30)) 0

/-- `strconv.ParseInt` after the sign: digits, and in range. -/
def parseDigits (neg : Bool) (ds : Str) : Option Int :=
  if ds ≠ [] ∧ ds.all isDigit then
    let n : Int := if neg then - (digitsValue ds : Int) else digitsValue ds
    if -9223372036854775808 ≤ n ∧ n < 9223372036854775808 then some n else none
  else none

/-- `strconv.ParseInt(s, 10, 64)` for a text that does not begin with a plus sign. -/
def parseInt : Str → Option Int
  | [] => none
  | c :: ds => if c = 0x2D then parseDigits true ds else parseDigits false (c :: ds)

/-- `fetchNull`, `fetchTrue`, `fetchFalse`: the rest of a word, which must end there. -/
def scanWord : Str → Str → Option Str
  | [], [] => some []
  | [], c :: rest => if isTokenEnd c then some (c :: rest) else none
  | _ :: _, [] => none
  | w :: ws, c :: rest => if c = w then scanWord ws rest else none

/-- One token, which begins with `c`. -/
def lexTok (c : UInt8) (rest : Str) : Option (Tok × Str) :=
  if c = 0x3A then some (.colon, rest)
  else if c = 0x2C then some (.comma, rest)
  else if c = 0x7B then some (.lbrace, rest)
  else if c = 0x7D then some (.rbrace, rest)
  else if c = 0x5B then some (.lbrack, rest)
  else if c = 0x5D then some (.rbrack, rest)
  else if c = 0x22 then
    match scanString rest with
    | some (t, rest) => (unescape t.length t).map fun s => (.str s, rest)
    | none => none
  else if isDigit c ∨ c = 0x2D then
    (scanNumber false false false rest).map fun p => (.num (parseInt (c :: p.1)), p.2)
  else if c = 0x6E then (scanWord (lit "ull") rest).map fun r => (.null, r)
  else if c = 0x74 then (scanWord (lit "rue") rest).map fun r => (.bool true, r)
  else if c = 0x66 then (scanWord (lit "alse") rest).map fun r => (.bool false, r)
  else none

/-- All tokens of a text; every token has at least one byte, so `fuel` never runs out. -/
def lexAux : Nat → Str → Option (List Tok)
  | _, [] => some []
  | 0, _ :: _ => none
  | fuel + 1, c :: rest =>
    if isSpace c then lexAux fuel rest
    else
      match lexTok c rest with
      | some (t, rest) => (lexAux fuel rest).map (t :: ·)
      | none => none

def lexAll (text : Str) : Option (List Tok) := lexAux text.length text

/-- `SearchResult.UnmarshalJSON` (search_result_easyjson.go:84-88) on a text without lexical errors: whether it
succeeds, and the value left in the receiver. -/
def unmarshalText (valid : List Tok → Bool) (text : Str) (v : JsonResult) : Option (Bool × JsonResult) :=
  (lexAll text).map fun ts => unmarshal valid ts v

end Visigoth
