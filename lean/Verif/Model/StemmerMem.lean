import Verif.Model.Stemmer
/-!
# `R1R2RV` with the memory behind its slices  (`stemmer_spanish_snowball.go`)

Byte slices as Go has them: a backing array, where the slice begins in it, its length and its capacity.  That the
contents of the results are those of `Model/Stemmer.lean` is a theorem.
-/
namespace Visigoth

/-- The backing arrays of byte slices. -/
abbrev ByteMem := List (List UInt8)

/-- A byte slice that is not nil. -/
structure ByteSlice where
  ptr : Nat
  off : Nat
  len : Nat
  cap : Nat
deriving DecidableEq, Repr

/-- The array exists and is long enough. -/
def ByteSlice.valid (m : ByteMem) (s : ByteSlice) : Prop :=
  ∃ a, m[s.ptr]? = some a ∧ s.off + s.cap ≤ a.length ∧ s.len ≤ s.cap

/-- The bytes of a slice, `string(s)`. -/
def ByteSlice.read (m : ByteMem) (s : ByteSlice) : Str := (((m[s.ptr]?).getD []).drop s.off).take s.len

/-- `s[i:]`: the same array from a later byte on; `none` if out of range. -/
def ByteSlice.sliceFrom (s : ByteSlice) (i : Nat) : Option ByteSlice :=
  if i ≤ s.len then some { s with off := s.off + i, len := s.len - i, cap := s.cap - i } else none

/-- `s[k] = v`; `none` if out of range. -/
def ByteSlice.write (m : ByteMem) (s : ByteSlice) (k : Nat) (v : UInt8) : Option ByteMem :=
  if k < s.len then some (m.modify s.ptr fun a => a.set (s.off + k) v) else none

/-- `append(s, v)`: in place if there is room, otherwise in a new array, of a size the runtime chooses. -/
def ByteSlice.append (grow : Nat → Nat) (m : ByteMem) (s : ByteSlice) (v : UInt8) : ByteSlice × ByteMem :=
  if s.len < s.cap then ({ s with len := s.len + 1 }, m.modify s.ptr fun a => a.set (s.off + s.len) v)
  else
    let cap := max (grow (s.len + 1)) (s.len + 1)
    ({ ptr := m.length, off := 0, len := s.len + 1, cap := cap },
      m ++ [s.read m ++ v :: List.replicate (cap - (s.len + 1)) 0])

/-- A slice variable that is set if a position was found: the outer `none` is a panic, the inner one nil. -/
def sliceAt (s : ByteSlice) : Option Nat → Option (Option ByteSlice)
  | none => some none
  | some i => (s.sliceFrom i).map some

/-- The characters `range string(s)` goes over (stemmer_spanish_snowball.go:33-35 and 58). -/
def slotsOf (m : ByteMem) (s : ByteSlice) : List RuneSlot :=
  (rangeStr (s.read m)).map fun e => { index := e.1, isVowel := isVowel e.2 : RuneSlot }

/-- Where RV begins (stemmer_spanish_snowball.go:75-113). -/
def rvIndex (runes : List RuneSlot) : Option Nat :=
  match runes with
  | s0 :: s1 :: _ :: _ =>
    match if s0.isVowel && s1.isVowel then rvLoop false false (runes.drop 2) else none with
    | some k => some k
    | none =>
      match if !s1.isVowel then rvLoop true false (runes.drop 2) else none with
      | some k => some k
      | none =>
        match runes[3]? with
        | some s3 => if !s0.isVowel && s1.isVowel then some s3.index else none
        | none => none
  | _ => none

/-- `R1R2RV` (stemmer_spanish_snowball.go:23-114) on slices; `none` is a panic.  It only reads the memory. -/
def r1r2rvM (m : ByteMem) (w : ByteSlice) : Option (Option ByteSlice × Option ByteSlice × Option ByteSlice) :=
  let runes := slotsOf m w
  match regionLoop false false runes with
  | none => some (none, none, none)
  | some i =>
    match w.sliceFrom i with
    | none => none
    | some r1 =>
      match sliceAt r1 (regionLoop false false (slotsOf m r1)), sliceAt w (rvIndex runes) with
      | some r2, some rv => some (some r1, r2, rv)
      | _, _ => none

end Visigoth
