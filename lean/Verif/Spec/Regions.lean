import Verif.Spec.Text
/-!
# Specification of the Snowball regions, on the characters of a word
-/
namespace Visigoth

/-- The vowels of the Spanish stemmer. -/
def SpanishVowel (c : GoChar) : Bool :=
  c.1 = 'a'.toNat || c.1 = 'e'.toNat || c.1 = 'i'.toNat || c.1 = 'o'.toNat || c.1 = 'u'.toNat ||
  c.1 = 'á'.toNat || c.1 = 'é'.toNat || c.1 = 'í'.toNat || c.1 = 'ó'.toNat || c.1 = 'ú'.toNat ||
  c.1 = 'ü'.toNat

/-- What follows the first character with `p`; empty if there is none. -/
def afterFirst (p : GoChar → Bool) (cs : List GoChar) : List GoChar := (cs.dropWhile fun c => !p c).tail

/-- "The region after the first non-vowel following a vowel, or the end of the word if there is no
such non-vowel." -/
def region (cs : List GoChar) : List GoChar :=
  afterFirst (fun c => !SpanishVowel c) (afterFirst SpanishVowel cs)

/-- "If the second letter is a consonant, RV is the region after the next following vowel, or if the
first two letters are vowels, RV is the region after the next consonant, and otherwise
(consonant-vowel case) RV is the region after the third letter. But RV is the end of the word if these
positions cannot be found." -/
def rvRegion : List GoChar → List GoChar
  | a :: b :: rest =>
    if !SpanishVowel b then afterFirst SpanishVowel rest
    else if SpanishVowel a then afterFirst (fun c => !SpanishVowel c) rest
    else rest.drop 1
  | _ => []

end Visigoth
