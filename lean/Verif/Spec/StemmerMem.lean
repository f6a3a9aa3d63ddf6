import Verif.Model.StemmerMem
/-!
# Views of a slice
-/
namespace Visigoth

/-- The part of a slice from a position on: the same array, with what is left of the length and the capacity. -/
def ByteSlice.tail (s : ByteSlice) (i : Nat) : ByteSlice := { s with off := s.off + i, len := s.len - i, cap := s.cap - i }

/-- A result that is nil, or the part of `s` from some position on. -/
def ViewOf (s : ByteSlice) (r : Option ByteSlice) : Prop := ∀ r', r = some r' → ∃ i, i ≤ s.len ∧ r' = s.tail i

end Visigoth
