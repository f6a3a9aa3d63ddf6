import Verif.Model.Stemmer
import Verif.Spec.Regions
import Verif.Proofs.Chars
/-!
# The region functions
-/
namespace Visigoth

theorem isVowel_eq (c : GoChar) : isVowel c.1 = SpanishVowel c := by
  simp only [isVowel, vowelRunes, SpanishVowel, List.contains_eq_mem]
  rw [Bool.eq_iff_iff]
  simp [or_assoc]

/-- The slots of a character sequence. -/
def slots (off : Nat) (cs : List GoChar) : List RuneSlot :=
  (withOffsets off cs).map fun e => { index := e.1, isVowel := isVowel e.2 }

theorem slots_cons (off : Nat) (c : GoChar) (cs : List GoChar) :
    slots off (c :: cs) = { index := off, isVowel := SpanishVowel c } :: slots (off + c.2.length) cs := by
  simp [slots, withOffsets, isVowel_eq]

theorem slots_nil (off : Nat) : slots off [] = [] := rfl

theorem afterFirst_nil (p : GoChar → Bool) : afterFirst p [] = [] := rfl

theorem afterFirst_cons (p : GoChar → Bool) (c : GoChar) (cs : List GoChar) :
    afterFirst p (c :: cs) = if p c then cs else afterFirst p cs := by
  unfold afterFirst
  rw [List.dropWhile_cons]
  by_cases h : p c <;> simp [h]

/-- The offset of a suffix region, if it is non-empty. -/
def startsAt (off : Nat) (cs r : List GoChar) (res : Option Nat) : Prop :=
  ∃ pre, cs = pre ++ r ∧ res = if r = [] then none else some (off + (bytesOf pre).length)

theorem startsAt_cons {off : Nat} {c : GoChar} {cs r : List GoChar} {res : Option Nat}
    (h : startsAt (off + c.2.length) cs r res) : startsAt off (c :: cs) r res := by
  obtain ⟨pre, h1, h2⟩ := h
  refine ⟨c :: pre, by rw [h1]; rfl, ?_⟩
  rw [h2, bytesOf_cons, List.length_append, Nat.add_assoc]

theorem regionLoop_found (fv : Bool) (off : Nat) (cs : List GoChar) :
    startsAt off cs cs (regionLoop fv true (slots off cs)) := by
  refine ⟨[], rfl, ?_⟩
  cases cs with
  | nil => rfl
  | cons c cs => simp [slots_cons, regionLoop, bytesOf]

theorem regionLoop_open (cs : List GoChar) : ∀ off,
    startsAt off cs (afterFirst (fun c => !SpanishVowel c) cs) (regionLoop true false (slots off cs)) := by
  induction cs with
  | nil => intro off; exact ⟨[], rfl, rfl⟩
  | cons c cs ih =>
    intro off
    rw [slots_cons, afterFirst_cons]
    apply startsAt_cons
    cases hv : SpanishVowel c with
    | true => simpa [regionLoop, hv] using ih (off + c.2.length)
    | false => simpa [regionLoop, hv] using regionLoop_found true (off + c.2.length) cs

theorem regionLoop_start (cs : List GoChar) : ∀ off,
    startsAt off cs (region cs) (regionLoop false false (slots off cs)) := by
  unfold region
  induction cs with
  | nil => intro off; exact ⟨[], rfl, rfl⟩
  | cons c cs ih =>
    intro off
    rw [slots_cons, afterFirst_cons]
    apply startsAt_cons
    cases hv : SpanishVowel c with
    | true => simpa [regionLoop, hv] using regionLoop_open cs (off + c.2.length)
    | false => simpa [regionLoop, hv] using ih (off + c.2.length)

theorem rvLoop_found (wanted : Bool) (off : Nat) (cs : List GoChar) :
    startsAt off cs cs (rvLoop wanted true (slots off cs)) := by
  refine ⟨[], rfl, ?_⟩
  cases cs with
  | nil => rfl
  | cons c cs => simp [slots_cons, rvLoop, bytesOf]

theorem rvLoop_start (wanted : Bool) (cs : List GoChar) : ∀ off,
    startsAt off cs (afterFirst (fun c => SpanishVowel c = wanted) cs) (rvLoop wanted false (slots off cs)) := by
  induction cs with
  | nil => intro off; exact ⟨[], rfl, rfl⟩
  | cons c cs ih =>
    intro off
    rw [slots_cons, afterFirst_cons]
    apply startsAt_cons
    by_cases hv : SpanishVowel c = wanted
    · simpa [rvLoop, hv] using rvLoop_found wanted (off + c.2.length) cs
    · simpa [rvLoop, hv] using ih (off + c.2.length)

theorem bytesOf_eq_nil {cs : List GoChar} {w : Str} {pre : List GoChar} (h : chars w = pre ++ cs) :
    bytesOf cs = [] ↔ cs = [] := by
  constructor
  · intro hb
    cases cs with
    | nil => rfl
    | cons c cs =>
      have : c.2 ≠ [] := chars_nonempty w c (by rw [h]; simp)
      rw [bytesOf_cons] at hb
      simp at hb
      exact absurd hb.1 this
  · intro h; subst h; rfl

/-- A region found at an offset is the bytes of its characters. -/
theorem startsAt_drop {w : Str} {r : List GoChar} {res : Option Nat} (h : startsAt 0 (chars w) r res) :
    res.map (fun i => w.drop i) = if r = [] then none else some (bytesOf r) := by
  obtain ⟨pre, h1, h2⟩ := h
  rw [h2]
  by_cases hr : r = []
  · simp [hr]
  · simp only [hr, if_false, Option.map_some, Nat.zero_add]
    congr 1
    conv => lhs; rw [← chars_flatten w, h1, bytesOf_append]
    simp

/-- A region found from the third character on. -/
theorem startsAt_drop2 {w : Str} {a b : GoChar} {cs r : List GoChar} {res : Option Nat}
    (hw : chars w = a :: b :: cs) (h : startsAt (a.2.length + b.2.length) cs r res) :
    res.map (fun i => w.drop i) = if r = [] then none else some (bytesOf r) := by
  apply startsAt_drop
  rw [hw]
  apply startsAt_cons
  rw [Nat.zero_add]
  exact startsAt_cons h

end Visigoth
