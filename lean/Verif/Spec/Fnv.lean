import Verif.Model.GoString
/-!
# The published 64-bit FNV-1 hash

In arithmetic on natural numbers, with the published prime `2^40 + 2^8 + 0xb3` and the published offset
basis.
-/
namespace Visigoth

/-- Multiply by the prime, keep 64 bits, combine with the next byte. -/
def fnv1From (h : Nat) : Str → Nat
  | [] => h
  | b :: bs => fnv1From ((h * (2 ^ 40 + 2 ^ 8 + 0xb3)) % 2 ^ 64 ^^^ b.toNat) bs

/-- FNV-1, 64 bits. -/
def fnv1 (bs : Str) : Nat := fnv1From 0xcbf29ce484222325 bs

end Visigoth
