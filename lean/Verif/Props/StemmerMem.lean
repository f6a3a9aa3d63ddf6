import Verif.Proofs.StemmerMem
import Verif.Props.Stemmer
/-!
# C85: the regions are views of the word

A region is described by the position at which it begins: `w.tail i` is the same backing array from the `i`-th byte
of `w` on, with what is left of its length and capacity.
-/
namespace Visigoth

theorem slot_in_range {m : ByteMem} {s : ByteSlice} (h : s.valid m) {i : Nat} (hi : ∃ r ∈ slotsOf m s, r.index = i) : i ≤ s.len := by
  obtain ⟨r, hr, rfl⟩ := hi
  obtain ⟨e, he, rfl⟩ := List.mem_map.1 hr
  have := C55_offsets_in_range _ e he
  rw [read_length h] at this
  exact Nat.le_of_lt this

/-- `R1R2RV` never panics; its results have the contents C55 and C56 speak of, in the memory of the word: each is the
end of the word from some position on, and R2 the end of R1. -/
theorem C85_views {m : ByteMem} {w : ByteSlice} (h : w.valid m) :
    ∃ r1 r2 rv, r1r2rvM m w = some (r1, r2, rv) ∧
      (r1.map (·.read m), r2.map (·.read m), rv.map (·.read m)) = r1r2rv (w.read m) ∧
      ViewOf w r1 ∧ ViewOf w r2 ∧ ViewOf w rv ∧ (∀ r, r1 = some r → ViewOf r r2) ∧ (r1 = none → r2 = none ∧ rv = none) := by
  rw [r1r2rv_index]
  unfold r1r2rvM
  dsimp only
  have e : ((rangeStr (w.read m)).map fun e => { index := e.1, isVowel := isVowel e.2 : RuneSlot }) = slotsOf m w := rfl
  rw [e]
  cases h1 : regionLoop false false (slotsOf m w) with
  | none => exact ⟨none, none, none, rfl, rfl, nofun, nofun, nofun, nofun, fun _ => ⟨rfl, rfl⟩⟩
  | some i =>
    have hi := slot_in_range h (regionLoop_mem h1)
    have hv1 := tail_valid h hi
    have e2 : ((rangeStr ((w.read m).drop i)).map fun e => { index := e.1, isVowel := isVowel e.2 : RuneSlot })
        = slotsOf m (w.tail i) := by rw [slotsOf, tail_read]
    simp only [sliceFrom_eq hi, e2]
    have two : ∃ r2, sliceAt (w.tail i) (regionLoop false false (slotsOf m (w.tail i))) = some r2 ∧
        r2.map (·.read m) = (regionLoop false false (slotsOf m (w.tail i))).map (fun j => ((w.read m).drop i).drop j) ∧
        ViewOf (w.tail i) r2 := by
      cases h2 : regionLoop false false (slotsOf m (w.tail i)) with
      | none => exact ⟨none, rfl, rfl, nofun⟩
      | some j =>
        have hj := slot_in_range hv1 (regionLoop_mem h2)
        refine ⟨some ((w.tail i).tail j), by simp [sliceAt, sliceFrom_eq hj], ?_, ?_⟩
        · simp [tail_read]
        · rintro r' ⟨⟩; exact ⟨j, hj, rfl⟩
    have three : ∃ rv, sliceAt w (rvIndex (slotsOf m w)) = some rv ∧
        rv.map (·.read m) = (rvIndex (slotsOf m w)).map (fun k => (w.read m).drop k) ∧ ViewOf w rv := by
      cases h3 : rvIndex (slotsOf m w) with
      | none => exact ⟨none, rfl, rfl, nofun⟩
      | some k =>
        have hk := slot_in_range h (rvIndex_mem h3)
        refine ⟨some (w.tail k), by simp [sliceAt, sliceFrom_eq hk], ?_, ?_⟩
        · simp [tail_read]
        · rintro r' ⟨⟩; exact ⟨k, hk, rfl⟩
    obtain ⟨r2, a1, a2, a3⟩ := two
    obtain ⟨rv, b1, b2, b3⟩ := three
    refine ⟨some (w.tail i), r2, rv, by rw [a1, b1], ?_, ?_, ?_, b3, ?_, nofun⟩
    · rw [a2, b2]; simp [tail_read]
    · rintro r' ⟨⟩; exact ⟨i, hi, rfl⟩
    · rintro r' hr
      obtain ⟨j, hj, rfl⟩ := a3 r' hr
      refine ⟨i + j, ?_, tail_tail w i j⟩
      simp only [ByteSlice.tail] at hj
      omega
    · rintro r ⟨⟩; exact a3

/-- Assigning to byte `k` of a region is assigning to byte `i + k` of the word, and that changes exactly this byte of
the word; every region sees it. -/
theorem C85_write {m : ByteMem} {w : ByteSlice} (h : w.valid m) {i k : Nat} (hk : i + k < w.len) (v : UInt8) :
    ∃ m', (w.tail i).write m k v = some m' ∧ w.write m (i + k) v = some m' ∧
      w.read m' = (w.read m).set (i + k) v ∧ ∀ j, (w.tail j).read m' = ((w.read m).set (i + k) v).drop j := by
  obtain ⟨a, h1, h2, h3⟩ := h
  have hr : w.read (m.modify w.ptr fun a => a.set (w.off + (i + k)) v) = (w.read m).set (i + k) v := by
    simp only [ByteSlice.read, List.getElem?_modify_eq, h1, Option.map_eq_map, Option.map_some, Option.getD_some]
    rw [List.drop_set, if_neg (by omega), List.take_set]
    congr 1
    omega
  refine ⟨_, if_pos (by simp only [ByteSlice.tail]; omega), ?_, ?_, fun j => ?_⟩
  · simp only [ByteSlice.write, if_pos hk, ByteSlice.tail, Nat.add_assoc]
  · simp only [ByteSlice.tail, Nat.add_assoc]; exact hr
  · simp only [tail_read]
    simp only [ByteSlice.tail, Nat.add_assoc]
    rw [hr]

/-- If the word has spare capacity, what is appended to one region is overwritten by what is appended to another:
both write the byte behind the word.  The word itself does not change. -/
theorem C85_append_overwrites {m : ByteMem} {w : ByteSlice} (h : w.valid m) (hc : w.len < w.cap) {i j : Nat}
    (hi : i ≤ w.len) (hj : j ≤ w.len) (grow : Nat → Nat) (x y : UInt8) :
    let (r, m1) := (w.tail i).append grow m x
    let (_, m2) := (w.tail j).append grow m1 y
    r.read m1 = (w.read m).drop i ++ [x] ∧ r.read m2 = (w.read m).drop i ++ [y] ∧ w.read m1 = w.read m ∧ w.read m2 = w.read m := by
  obtain ⟨a, h1, h2, h3⟩ := h
  have ci : (w.tail i).len < (w.tail i).cap := by simp only [ByteSlice.tail]; omega
  have cj : (w.tail j).len < (w.tail j).cap := by simp only [ByteSlice.tail]; omega
  have oi : (w.tail i).off + (w.tail i).len = w.off + w.len := by simp only [ByteSlice.tail]; omega
  have oj : (w.tail j).off + (w.tail j).len = w.off + w.len := by simp only [ByteSlice.tail]; omega
  have li : w.len - i + 1 = (w.len + 1) - i := by omega
  have key : ∀ (b : List UInt8) (z : UInt8), w.off + w.cap ≤ b.length →
      ((b.set (w.off + w.len) z).drop (w.off + i)).take (w.len - i + 1) = ((b.drop w.off).take w.len).drop i ++ [z] ∧
      ((b.set (w.off + w.len) z).drop w.off).take w.len = (b.drop w.off).take w.len := by
    intro b z hb
    have hd : (b.set (w.off + w.len) z).drop w.off = (b.drop w.off).set w.len z := by
      rw [List.drop_set, if_neg (by omega)]
      congr 1
      omega
    have hl : w.len < (b.drop w.off).length := by rw [List.length_drop]; omega
    constructor
    · rw [← List.drop_drop, hd, li, ← List.drop_take]
      have : ((b.drop w.off).set w.len z).take (w.len + 1) = (b.drop w.off).take w.len ++ [z] := by
        rw [List.take_succ_eq_append_getElem (by simpa using hl), List.take_set_of_le (Nat.le_refl _)]
        simp
      rw [this, List.drop_append_of_le_length]
      rw [List.length_take]
      omega
    · rw [hd, List.take_set_of_le (Nat.le_refl _)]
  simp only [ByteSlice.append, if_pos ci, if_pos cj, oi, oj]
  simp only [ByteSlice.read, ByteSlice.tail, List.getElem?_modify_eq, h1, Option.map_eq_map, Option.map_some, Option.getD_some]
  refine ⟨(key a x h2).1, ?_, (key a x h2).2, ?_⟩
  · rw [List.set_set]; exact (key a y h2).1
  · rw [List.set_set]; exact (key a y h2).2

/-- Without spare capacity appending to a region copies it: no slice there was before changes. -/
theorem C85_append_copies {m : ByteMem} {w : ByteSlice} (h : w.valid m) (hc : w.len = w.cap) {i : Nat} (hi : i ≤ w.len)
    (grow : Nat → Nat) (x : UInt8) :
    let (r, m1) := (w.tail i).append grow m x
    r.read m1 = (w.read m).drop i ++ [x] ∧ ∀ s : ByteSlice, s.valid m → s.read m1 = s.read m := by
  have ci : ¬ (w.tail i).len < (w.tail i).cap := by simp only [ByteSlice.tail]; omega
  have hl := read_length (tail_valid h hi)
  simp only [ByteSlice.append, if_neg ci]
  constructor
  · rw [← tail_read m w i]
    have hm : ∀ X : List UInt8, ((m ++ [X])[m.length]?).getD [] = X := fun X => by simp
    rw [ByteSlice.read]
    dsimp only
    rw [hm, List.drop_zero, ← hl, List.take_append, List.take_of_length_le (Nat.le_succ _)]
    simp
  · rintro s ⟨a, h1, -⟩
    have : s.ptr < m.length := (List.getElem?_eq_some_iff.1 h1).1
    simp only [ByteSlice.read, List.getElem?_append_left this]

/-- "camiones": R1 is "iones", R2 "es", RV "iones"; a write to the first byte of R2 changes all. -/
example : (r1r2rvM [str "camiones"] ⟨0, 0, 8, 8⟩) = some (some ⟨0, 3, 5, 5⟩, some ⟨0, 6, 2, 2⟩, some ⟨0, 3, 5, 5⟩) := by
  decide +kernel

example : ((⟨0, 6, 2, 2⟩ : ByteSlice).write [str "camiones"] 0 97) = some [str "camionas"] := by decide +kernel

end Visigoth
