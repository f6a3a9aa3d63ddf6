import Verif.Model.Entities
import Verif.Spec.Fnv
/-!
# Properties of the document hash (C29)
-/
namespace Visigoth

/-- The FNV prime is invertible modulo 2^64. -/
theorem fnv_mul_cancel (a b : UInt64) (h : a * 1099511628211 = b * 1099511628211) : a = b := by
  have hp : (1099511628211 : UInt64) * 14886173955864302971 = 1 := by decide +kernel
  have : a * 1099511628211 * 14886173955864302971 = b * 1099511628211 * 14886173955864302971 := by rw [h]
  rwa [UInt64.mul_assoc, UInt64.mul_assoc, hp, UInt64.mul_one, UInt64.mul_one] at this

theorem xor_right_cancel (a b c : UInt64) (h : a ^^^ c = b ^^^ c) : a = b := by
  have : (a ^^^ c) ^^^ c = (b ^^^ c) ^^^ c := by rw [h]
  rwa [UInt64.xor_assoc, UInt64.xor_assoc, UInt64.xor_self, UInt64.xor_zero, UInt64.xor_zero] at this

theorem xor_left_cancel (a b c : UInt64) (h : c ^^^ a = c ^^^ b) : a = b := by
  rw [UInt64.xor_comm c a, UInt64.xor_comm c b] at h
  exact xor_right_cancel a b c h

theorem fnvWrite_append (h : UInt64) (a b : Str) : fnvWrite h (a ++ b) = fnvWrite (fnvWrite h a) b :=
  List.foldl_append

theorem fnvWrite_injective (s : Str) (h h' : UInt64) : fnvWrite h s = fnvWrite h' s ↔ h = h' := by
  constructor
  · induction s generalizing h h' with
    | nil => exact id
    | cons b s ih => exact fun e => fnv_mul_cancel h h' (xor_right_cancel _ _ _ (ih _ _ e))
  · rintro rfl; rfl

theorem toUInt64_inj (a b : UInt8) (h : a.toUInt64 = b.toUInt64) : a = b := by
  have := congrArg UInt64.toNat h
  rw [UInt8.toNat_toUInt64, UInt8.toNat_toUInt64] at this
  exact UInt8.toNat_inj.1 this

theorem fnvWrite_toNat (h : UInt64) (bs : Str) : (fnvWrite h bs).toNat = fnv1From h.toNat bs := by
  induction bs generalizing h with
  | nil => rfl
  | cons b bs ih =>
    rw [fnv1From]
    have := ih ((h * 1099511628211) ^^^ b.toUInt64)
    rw [UInt64.toNat_xor, UInt64.toNat_mul, UInt8.toNat_toUInt64] at this
    exact this

/-- The hash of a document is the published 64-bit FNV-1 hash of its ID. -/
theorem C29_published_fnv (d : Doc) : d.hash.toNat = fnv1 d.name := fnvWrite_toNat _ _

/-- Only the ID matters. -/
theorem C29_function_of_the_id (d d' : Doc) (h : d.name = d'.name) : d.hash = d'.hash := by
  unfold Doc.hash Doc.id; rw [h]

/-- IDs that differ in exactly one byte hash differently. -/
theorem C29_one_byte_difference (p s : Str) (a b : UInt8) (hab : a ≠ b) (c c' : Str) :
    Doc.hash { name := p ++ a :: s, content := c } ≠ Doc.hash { name := p ++ b :: s, content := c' } := by
  intro h
  simp only [Doc.hash, Doc.id, fnvWrite_append] at h
  change fnvWrite (fnvWrite (fnvWrite fnvOffset p) [a]) s = fnvWrite (fnvWrite (fnvWrite fnvOffset p) [b]) s at h
  rw [fnvWrite_injective] at h
  exact hab (toUInt64_inj a b (xor_left_cancel _ _ _ h))

/-- A common suffix neither creates nor removes a collision. -/
theorem C29_common_suffix (x y s : Str) (c c' : Str) :
    Doc.hash { name := x ++ s, content := c } = Doc.hash { name := y ++ s, content := c' } ↔
      Doc.hash { name := x, content := c } = Doc.hash { name := y, content := c' } := by
  simp only [Doc.hash, Doc.id, fnvWrite_append, fnvWrite_injective]

/-- The hash is not an identity: distinct IDs collide, and so do infinitely many pairs. -/
theorem C29_collision : ∃ x y : Str, x ≠ y ∧ ∀ s c c' : Str,
    Doc.hash { name := x ++ s, content := c } = Doc.hash { name := y ++ s, content := c' } := by
  refine ⟨"x4PHRi1pgIJ".toUTF8.toList, "BDB0XT_KgML".toUTF8.toList, by decide +kernel, fun s c c' => ?_⟩
  rw [C29_common_suffix]
  simp only [Doc.hash, Doc.id]
  decide +kernel

/-- Published FNV-1 test vectors: the empty string and "foobar". -/
example : fnvWrite fnvOffset [] = 0xcbf29ce484222325 := by decide +kernel
example : fnvWrite fnvOffset "foobar".toUTF8.toList = 0x340d8765a4dda9c2 := by decide +kernel

end Visigoth
