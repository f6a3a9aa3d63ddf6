import Verif.Model.GoString
/-!
# Snowball regions  (`stemmer_spanish_snowball.go`)

The returned slices are views of the argument in Go (`Model/StemmerMem.lean`); here they are byte lists, `none` is nil.
-/
namespace Visigoth

/-- The keys of `vowels` (stemmer_spanish_snowball.go:3-15): a e i o u á é í ó ú ü. -/
def vowelRunes : List Rune := [97, 101, 105, 111, 117, 225, 233, 237, 243, 250, 252]

/-- `isVowel` (stemmer_spanish_snowball.go:17-20). -/
def isVowel (r : Rune) : Bool := vowelRunes.contains r

/-- `runeSlot` (stemmer_spanish_snowball.go:27-31), without the unused `Value`. -/
structure RuneSlot where
  index : Nat
  isVowel : Bool

/-- The loops that find R1 and R2 (stemmer_spanish_snowball.go:38-51 and 57-71): the byte offset at
which the region starts, if it is found. -/
def regionLoop (foundVowel foundNonVowel : Bool) : List RuneSlot → Option Nat
  | [] => none
  | slot :: rest =>
    if foundNonVowel then some slot.index
    else
      let foundNonVowel := if foundVowel then (if !slot.isVowel then true else foundNonVowel) else foundNonVowel
      let foundVowel := if slot.isVowel then true else foundVowel
      regionLoop foundVowel foundNonVowel rest

/-- The loops that find RV (stemmer_spanish_snowball.go:81-91 and 95-105): the offset of the slot after
the first one with `isVowel = wanted`. -/
def rvLoop (wanted : Bool) (found : Bool) : List RuneSlot → Option Nat
  | [] => none
  | run :: rest =>
    if found then some run.index
    else rvLoop wanted (if run.isVowel = wanted then true else found) rest

/-- `R1R2RV` (stemmer_spanish_snowball.go:23-114). -/
def r1r2rv (w : Str) : Option Str × Option Str × Option Str :=
  let runes := (rangeStr w).map fun e => { index := e.1, isVowel := isVowel e.2 : RuneSlot }
  match regionLoop false false runes with
  | none => (none, none, none)                       -- `if r1 == nil { return }`
  | some i =>
    let r1 := w.drop i
    let r2 := (regionLoop false false
      ((rangeStr r1).map fun e => { index := e.1, isVowel := isVowel e.2 : RuneSlot })).map fun j => r1.drop j
    match runes with
    | s0 :: s1 :: _ :: _ =>
      let first := if s0.isVowel && s1.isVowel then rvLoop false false (runes.drop 2) else none
      match first with
      | some k => (some r1, r2, some (w.drop k))
      | none =>
        let second := if !s1.isVowel then rvLoop true false (runes.drop 2) else none
        match second with
        | some k => (some r1, r2, some (w.drop k))
        | none =>
          match runes[3]? with
          | some s3 =>
            if !s0.isVowel && s1.isVowel then (some r1, r2, some (w.drop s3.index))
            else (some r1, r2, none)
          | none => (some r1, r2, none)
    | _ => (some r1, r2, none)                       -- `if len(runes) < 3 { return }`

/-- `Stemmer.Stem` (stemmer_spanish_snowball.go:118-120): unfinished, always nil. -/
def stem (_w : Str) : Option Str := none

end Visigoth
