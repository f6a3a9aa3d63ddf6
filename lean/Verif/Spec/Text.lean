import Verif.Model.GoString
/-!
# Specification vocabulary for texts

A Go string is read as a sequence of *characters*; a character is a rune together with the bytes
that encode it in that string (a single byte, read as U+FFFD, when malformed).
-/
namespace Visigoth

/-- A character of a string: its rune and its bytes. -/
abbrev GoChar := Rune × Str

def charsAux : Nat → Str → List GoChar
  | 0, _ => []
  | _ + 1, [] => []
  | fuel + 1, s@(_ :: _) =>
    ((decodeRune s).1, s.take (decodeRune s).2) :: charsAux fuel (s.drop (decodeRune s).2)

/-- The characters of a string, left to right. -/
def chars (s : Str) : List GoChar := charsAux s.length s

/-- The bytes of a sequence of characters. -/
def bytesOf (cs : List GoChar) : Str := cs.flatMap (·.2)

/-- `toks` are the tokens of the character sequence `cs` when exactly the characters with
`keep` belong to tokens:  `cs` is  `lead tok₁ sep₁ tok₂ sep₂ … tokₙ sepₙ`  where the `tokᵢ` are
non-empty and consist of kept characters, `lead` and the `sepᵢ` consist of characters that are not
kept, and all `sepᵢ` except possibly the last one are non-empty. -/
def IsTokenization (keep : Rune → Bool) (cs : List GoChar) (toks : List (List GoChar)) : Prop :=
  ∃ (lead : List GoChar) (seps : List (List GoChar)),
    seps.length = toks.length ∧
    cs = lead ++ (List.zipWith (· ++ ·) toks seps).flatten ∧
    (∀ c ∈ lead, keep c.1 = false) ∧
    (∀ t ∈ toks, t ≠ [] ∧ ∀ c ∈ t, keep c.1 = true) ∧
    (∀ s ∈ seps, ∀ c ∈ s, keep c.1 = false) ∧
    (∀ s ∈ seps.dropLast, s ≠ [])

/-- Unicode scalar values: the runes UTF-8 can encode. -/
def IsScalar (r : Nat) : Prop := r < 0xD800 ∨ (0xDFFF < r ∧ r ≤ 0x10FFFF)

/-- A string is valid UTF-8 when it is the encoding of its own runes. -/
def ValidUTF8 (s : Str) : Prop := ∃ rs : List Nat, (∀ r ∈ rs, IsScalar r) ∧ s = rs.flatMap encodeRune

/-- What is assumed of `unicode.ToLower`: on ASCII it lower-cases the 26 letters, it maps scalar
values to scalar values, lower-casing twice is lower-casing once, and U+FFFD is not a letter. -/
structure CaseTable (uni : Nat → Nat) : Prop where
  ascii : ∀ r, r < 0x80 → uni r = if 0x41 ≤ r ∧ r ≤ 0x5A then r + 0x20 else r
  scalar : ∀ r, IsScalar r → IsScalar (uni r)
  idem : ∀ r, uni (uni r) = uni r
  err : uni runeError = runeError

/-- Lists of equal length related element by element. -/
inductive Forall2 {α β : Type} (R : α → β → Prop) : List α → List β → Prop
  | nil : Forall2 R [] []
  | cons {a b as bs} : R a b → Forall2 R as bs → Forall2 R (a :: as) (b :: bs)

/-- Two bytes are equal, or the upper and lower case of one ASCII letter. -/
def foldEq (a b : UInt8) : Prop :=
  a = b ∨ (0x41 ≤ a ∧ a ≤ 0x5A ∧ b = a + 0x20) ∨ (0x41 ≤ b ∧ b ≤ 0x5A ∧ a = b + 0x20)

/-- Two strings that differ only in the case of ASCII letters. -/
def CaseVariant (s t : Str) : Prop := Forall2 foldEq s t

/-- A keep-predicate that does not look at the case of ASCII letters. -/
def CaseBlind (f : Nat → Bool) : Prop := ∀ r, 0x41 ≤ r → r ≤ 0x5A → f r = f (r + 0x20)

/-- Byte string of a literal, for examples. -/
def str (s : String) : Str := s.toUTF8.toList

end Visigoth
