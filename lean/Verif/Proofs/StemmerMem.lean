import Verif.Spec.StemmerMem
/-! # Lemmas about `R1R2RV` on slices -/
namespace Visigoth

theorem r1r2rv_index (w : Str) :
    r1r2rv w =
      match regionLoop false false ((rangeStr w).map fun e => { index := e.1, isVowel := isVowel e.2 : RuneSlot }) with
      | none => (none, none, none)
      | some i => (some (w.drop i),
          (regionLoop false false ((rangeStr (w.drop i)).map fun e => { index := e.1, isVowel := isVowel e.2 : RuneSlot })).map
            fun j => (w.drop i).drop j,
          (rvIndex ((rangeStr w).map fun e => { index := e.1, isVowel := isVowel e.2 : RuneSlot })).map fun k => w.drop k) := by
  unfold r1r2rv
  dsimp only
  generalize (rangeStr w).map (fun e => { index := e.1, isVowel := isVowel e.2 : RuneSlot }) = runes
  cases regionLoop false false runes with
  | none => rfl
  | some i =>
    dsimp only
    rcases runes with _ | ⟨s0, _ | ⟨s1, _ | ⟨s2, rest⟩⟩⟩
    · rfl
    · rfl
    · rfl
    · simp only [rvIndex]
      generalize (if (s0.isVowel && s1.isVowel) = true then rvLoop false false ((s0 :: s1 :: s2 :: rest).drop 2) else none) = x
      generalize (if (!s1.isVowel) = true then rvLoop true false ((s0 :: s1 :: s2 :: rest).drop 2) else none) = y
      generalize (s0 :: s1 :: s2 :: rest)[3]? = z
      cases x with
      | some k => rfl
      | none =>
        cases y with
        | some k => rfl
        | none =>
          cases z with
          | some s3 => dsimp only; split <;> rfl
          | none => rfl

theorem regionLoop_mem : ∀ {l : List RuneSlot} {fv fn : Bool} {i : Nat}, regionLoop fv fn l = some i → ∃ s ∈ l, s.index = i := by
  intro l
  induction l with
  | nil => intro fv fn i h; cases h
  | cons s l ih =>
    intro fv fn i h
    unfold regionLoop at h
    split at h
    · exact ⟨s, by simp, Option.some.inj h⟩
    · obtain ⟨s', h1, h2⟩ := ih h
      exact ⟨s', by simp [h1], h2⟩

theorem rvLoop_mem : ∀ {l : List RuneSlot} {wanted found : Bool} {i : Nat}, rvLoop wanted found l = some i → ∃ s ∈ l, s.index = i := by
  intro l
  induction l with
  | nil => intro fv fn i h; cases h
  | cons s l ih =>
    intro fv fn i h
    unfold rvLoop at h
    split at h
    · exact ⟨s, by simp, Option.some.inj h⟩
    · obtain ⟨s', h1, h2⟩ := ih h
      exact ⟨s', by simp [h1], h2⟩

theorem rvIndex_mem {l : List RuneSlot} {i : Nat} (h : rvIndex l = some i) : ∃ s ∈ l, s.index = i := by
  unfold rvIndex at h
  split at h
  · next s0 s1 s2 rest =>
    have up : (∃ s ∈ (s0 :: s1 :: s2 :: rest).drop 2, s.index = i) → ∃ s ∈ s0 :: s1 :: s2 :: rest, s.index = i :=
      fun ⟨s, h1, h2⟩ => ⟨s, List.mem_of_mem_drop h1, h2⟩
    split at h
    · next k hk =>
      cases h
      split at hk
      · exact up (rvLoop_mem hk)
      · cases hk
    · split at h
      · next k hk =>
        cases h
        split at hk
        · exact up (rvLoop_mem hk)
        · cases hk
      · split at h
        · next s3 h3 =>
          split at h
          · exact ⟨s3, List.mem_of_getElem? h3, Option.some.inj h⟩
          · cases h
        · cases h
  · cases h

theorem read_length {m : ByteMem} {s : ByteSlice} (h : s.valid m) : (s.read m).length = s.len := by
  obtain ⟨a, h1, h2, h3⟩ := h
  simp only [ByteSlice.read, h1, Option.getD_some, List.length_take, List.length_drop]
  omega

theorem sliceFrom_eq {s : ByteSlice} {i : Nat} (h : i ≤ s.len) : s.sliceFrom i = some (s.tail i) := if_pos h

theorem tail_valid {m : ByteMem} {s : ByteSlice} {i : Nat} (h : s.valid m) (hi : i ≤ s.len) : (s.tail i).valid m := by
  obtain ⟨a, h1, h2, h3⟩ := h
  exact ⟨a, h1, by simp only [ByteSlice.tail]; omega, by simp only [ByteSlice.tail]; omega⟩

theorem tail_read (m : ByteMem) (s : ByteSlice) (i : Nat) : (s.tail i).read m = (s.read m).drop i := by
  simp only [ByteSlice.read, ByteSlice.tail, List.drop_take, List.drop_drop]

theorem tail_tail (s : ByteSlice) (i j : Nat) : (s.tail i).tail j = s.tail (i + j) := by
  simp only [ByteSlice.tail, ByteSlice.mk.injEq, true_and]
  omega

end Visigoth
