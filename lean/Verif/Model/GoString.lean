/-!
# Go strings and byte slices

Go strings and `[]byte` values are immutable-value byte lists here.  The Go runtime and the
`strings` / `unicode/utf8` packages are not part of the repository; the definitions of this file
model the pieces of them the repository calls (`range` over a string, `strings.FieldsFunc`,
`strings.ToLower`), following the Go 1.23 sources.
-/
namespace Visigoth

/-- A Go `string` or `[]byte`: a sequence of bytes. -/
abbrev Str := List UInt8

/-- A Go `rune`.  Simplification: `int32`, here a natural number (decoding never yields a negative one). -/
abbrev Rune := Nat

/-- `utf8.RuneError`. -/
def runeError : Rune := 0xFFFD

/-- Lowest second byte accepted after lead byte `b0` (`utf8.acceptRanges`, field `lo`). -/
def acceptLo (b0 : UInt8) : UInt8 :=
  if b0 = 0xE0 then 0xA0 else if b0 = 0xF0 then 0x90 else 0x80

/-- Highest second byte accepted after lead byte `b0` (`utf8.acceptRanges`, field `hi`). -/
def acceptHi (b0 : UInt8) : UInt8 :=
  if b0 = 0xED then 0x9F else if b0 = 0xF4 then 0x8F else 0xBF

/-- Continuation byte (`locb ≤ b ≤ hicb`). -/
def isCont (b : UInt8) : Bool := 0x80 ≤ b && b ≤ 0xBF

/-- `utf8.DecodeRuneInString`: the first rune of a string and its width in bytes; any malformed
sequence is `(RuneError, 1)`.  The shifts and masks of the Go code are written with `*` and `%`. -/
def decodeRune : Str → Rune × Nat
  | [] => (runeError, 0)
  | b0 :: rest =>
    if b0 < 0x80 then (b0.toNat, 1)
    else if b0 < 0xC2 || 0xF4 < b0 then (runeError, 1)
    else if b0 < 0xE0 then
      match rest with
      | b1 :: _ =>
        if acceptLo b0 ≤ b1 && b1 ≤ acceptHi b0 then
          ((b0.toNat % 32) * 64 + b1.toNat % 64, 2)
        else (runeError, 1)
      | _ => (runeError, 1)
    else if b0 < 0xF0 then
      match rest with
      | b1 :: b2 :: _ =>
        if acceptLo b0 ≤ b1 && b1 ≤ acceptHi b0 && isCont b2 then
          ((b0.toNat % 16) * 4096 + (b1.toNat % 64) * 64 + b2.toNat % 64, 3)
        else (runeError, 1)
      | _ => (runeError, 1)
    else
      match rest with
      | b1 :: b2 :: b3 :: _ =>
        if acceptLo b0 ≤ b1 && b1 ≤ acceptHi b0 && isCont b2 && isCont b3 then
          ((b0.toNat % 8) * 262144 + (b1.toNat % 64) * 4096 + (b2.toNat % 64) * 64 + b3.toNat % 64, 4)
        else (runeError, 1)
      | _ => (runeError, 1)

/-- `utf8.AppendRune` / `Builder.WriteRune`: UTF-8 encoding; surrogates and out-of-range values are
encoded as `RuneError`. -/
def encodeRune (r : Nat) : Str :=
  if r < 0x80 then [UInt8.ofNat r]
  else if r < 0x800 then [UInt8.ofNat (0xC0 + r / 64), UInt8.ofNat (0x80 + r % 64)]
  else if (0xD800 ≤ r && r ≤ 0xDFFF) || 0x10FFFF < r then [0xEF, 0xBF, 0xBD]
  else if r < 0x10000 then
    [UInt8.ofNat (0xE0 + r / 4096), UInt8.ofNat (0x80 + r / 64 % 64), UInt8.ofNat (0x80 + r % 64)]
  else
    [UInt8.ofNat (0xF0 + r / 262144), UInt8.ofNat (0x80 + r / 4096 % 64),
     UInt8.ofNat (0x80 + r / 64 % 64), UInt8.ofNat (0x80 + r % 64)]

/-- One iteration sequence of `for i, r := range s`: byte offset and rune of every character.
`fuel` bounds the number of characters, `off` is the offset of the head of `s`. -/
def rangeAux : Nat → Nat → Str → List (Nat × Rune)
  | 0, _, _ => []
  | _ + 1, _, [] => []
  | fuel + 1, off, s@(_ :: _) =>
    (off, (decodeRune s).1) :: rangeAux fuel (off + (decodeRune s).2) (s.drop (decodeRune s).2)

/-- `for i, r := range s`. Every character is at least one byte wide, so `len(s)` steps suffice
(`rangeStr_covers` in `Proofs/GoString.lean` shows that nothing is cut off). -/
def rangeStr (s : Str) : List (Nat × Rune) := rangeAux s.length 0 s

/-- The Go slice expression `s[a:b]` for `a ≤ b ≤ len(s)`. -/
def substr (s : Str) (a b : Nat) : Str := (s.drop a).take (b - a)

/-- The loop of `strings.FieldsFunc`: the spans of the fields.  `start` is the start of the open
field (`none` models the negative sentinel), `n = len(s)`. -/
def fieldsSpans (f : Rune → Bool) (n : Nat) : Option Nat → List (Nat × Rune) → List (Nat × Nat)
  | none, [] => []
  | some st, [] => [(st, n)]
  | none, (i, r) :: rest =>
    if f r then fieldsSpans f n none rest else fieldsSpans f n (some i) rest
  | some st, (i, r) :: rest =>
    if f r then (st, i) :: fieldsSpans f n none rest else fieldsSpans f n (some st) rest

/-- `strings.FieldsFunc(s, f)`. -/
def fieldsFunc (s : Str) (f : Rune → Bool) : List Str :=
  (fieldsSpans f s.length none (rangeStr s)).map fun sp => substr s sp.1 sp.2

/-- The runes of a string, as `range` yields them. -/
def runesOf (s : Str) : List Rune := (rangeStr s).map (·.2)

/-- `strings.Map(m, s)` for a mapping that never returns a negative rune: every character is
re-encoded after mapping.  (The Go code starts copying at the first changed character; the skipped
prefix consists of well-formed characters that re-encode to themselves, see
`mapStr_id_of_valid`.) -/
def mapStr (m : Rune → Rune) (s : Str) : Str := (runesOf s).flatMap fun r => encodeRune (m r)

/-- ASCII upper-case letter test of `strings.ToLower`. -/
def isUpperASCII (b : UInt8) : Bool := 0x41 ≤ b && b ≤ 0x5A

/-- `strings.ToLower(s)`: byte-wise on pure ASCII input, `strings.Map(unicode.ToLower, s)` otherwise.
`uni` models `unicode.ToLower`. -/
def toLower (uni : Rune → Rune) (s : Str) : Str :=
  if s.all (fun b => b < 0x80) then
    if s.any isUpperASCII then s.map (fun b => if isUpperASCII b then b + 0x20 else b) else s
  else mapStr uni s

end Visigoth
