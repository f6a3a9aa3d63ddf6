import Verif.Proofs.Run
/-!
# Tables of slices over a heap of backing arrays

Used for the alias table of the repository and for the posting lists of an index.
-/
namespace Visigoth

variable {α : Type}

/-- The elements of a slice, given the backing arrays. -/
def elemsIn (A : List (List α)) (r : SliceRef) : List α := ((A[r.arr]?).getD []).take r.len

/-- The slice lies inside its backing array. -/
def ValidIn (A : List (List α)) (r : SliceRef) : Prop := ∃ a, A[r.arr]? = some a ∧ r.len ≤ a.length

/-- The alias table: unique keys, valid slices, no shared backing array. -/
structure AlOk (A : List (List α)) (al : GoMap Name SliceRef) : Prop where
  nodup : al.keys.Nodup
  valid : ∀ n r, al.get n = some r → ValidIn A r
  distinct : ∀ n m r r', al.get n = some r → al.get m = some r' → r.arr = r'.arr → n = m

/-- Contents of the alias table. -/
def alView (A : List (List α)) (al : GoMap Name SliceRef) (n : Name) : Option (List α) :=
  (al.get n).map (elemsIn A)

/-- A slice that was read from the alias table at some time: no current slice over the same array is
shorter, so that appending never writes into it. -/
def Snap (A : List (List α)) (al : GoMap Name SliceRef) (r : SliceRef) : Prop :=
  ValidIn A r ∧ ∀ n r', al.get n = some r' → r'.arr = r.arr → r.len ≤ r'.len

theorem AlOk.snap {A : List (List α)} {al} (h : AlOk A al) {n r} (hg : al.get n = some r) : Snap A al r := by
  refine ⟨h.valid n r hg, fun m r' hm he => ?_⟩
  have := h.distinct m n r' r hm hg he
  subst this
  rw [hg] at hm
  injection hm with hm
  subst hm
  exact Nat.le_refl _

/-- All snapshots survive with their contents. -/
def Keeps (A : List (List α)) (al : GoMap Name SliceRef) (A' : List (List α))
    (al' : GoMap Name SliceRef) : Prop :=
  ∀ r, Snap A al r → Snap A' al' r ∧ elemsIn A' r = elemsIn A r

theorem Keeps.refl (A : List (List α)) (al) : Keeps A al A al := fun _ h => ⟨h, rfl⟩

theorem Keeps.trans {A A' A'' : List (List α)} {al al' al''} (h : Keeps A al A' al') (g : Keeps A' al' A'' al'') :
    Keeps A al A'' al'' := fun r hr =>
  ⟨(g r (h r hr).1).1, (g r (h r hr).1).2.trans (h r hr).2⟩

theorem validIn_append {A : List (List α)} {r : SliceRef} (h : ValidIn A r) (x : List α) :
    ValidIn (A ++ [x]) r ∧ elemsIn (A ++ [x]) r = elemsIn A r := by
  obtain ⟨a, h1, h2⟩ := h
  have hlt := (List.getElem?_eq_some_iff.1 h1).1
  have : (A ++ [x])[r.arr]? = some a := by rw [List.getElem?_append_left hlt, h1]
  exact ⟨⟨a, this, h2⟩, by simp only [elemsIn, this, h1]⟩

theorem validIn_lt {A : List (List α)} {r : SliceRef} (h : ValidIn A r) : r.arr < A.length := by
  obtain ⟨a, h1, _⟩ := h
  exact (List.getElem?_eq_some_iff.1 h1).1

/-- Storing a slice over a new array. -/
theorem alOk_new {A : List (List α)} {al} (h : AlOk A al) (n : Name) (x : List α) (len : Nat) (hl : len ≤ x.length) :
    AlOk (A ++ [x]) (GoMap.set al n ⟨A.length, len⟩) ∧
    (∀ m, alView (A ++ [x]) (GoMap.set al n ⟨A.length, len⟩) m
      = upd (alView A al) n (some (x.take len)) m) ∧
    Keeps A al (A ++ [x]) (GoMap.set al n ⟨A.length, len⟩) := by
  have hnew : (A ++ [x])[A.length]? = some x := by simp
  refine ⟨⟨GoMap.nodup_set _ _ _ h.nodup, ?_, ?_⟩, ?_, ?_⟩
  · intro m r hm
    rw [GoMap.get_set] at hm
    split at hm
    · injection hm with hm; subst hm; exact ⟨x, hnew, hl⟩
    · exact (validIn_append (h.valid m r hm) x).1
  · intro m k r r' hm hk he
    rw [GoMap.get_set] at hm hk
    split at hm <;> split at hk
    · simp_all
    · injection hm with hm; subst hm
      have := validIn_lt (h.valid k r' hk)
      simp only at he; omega
    · injection hk with hk; subst hk
      have := validIn_lt (h.valid m r hm)
      simp only at he; omega
    · exact h.distinct m k r r' hm hk he
  · intro m
    unfold alView upd
    rw [GoMap.get_set]
    by_cases hm : m = n
    · subst hm; simp [elemsIn]
    · rw [if_neg hm, if_neg (Ne.symm hm)]
      cases hg : al.get m with
      | none => simp [hg]
      | some r => simp [hg, (validIn_append (h.valid m r hg) x).2]
  · intro r hr
    refine ⟨⟨(validIn_append hr.1 x).1, fun m r' hm he => ?_⟩, (validIn_append hr.1 x).2⟩
    rw [GoMap.get_set] at hm
    split at hm
    · injection hm with hm; subst hm
      have := validIn_lt hr.1
      simp only at he; omega
    · exact hr.2 m r' hm he

/-- Appending in place. -/
theorem alOk_inPlace {A : List (List α)} {al} (h : AlOk A al) (n : Name) (r : SliceRef) (a : List α) (v : α)
    (hg : al.get n = some r) (ha : A[r.arr]? = some a) (hlt : r.len < a.length) :
    AlOk (A.set r.arr (a.set r.len v)) (GoMap.set al n { r with len := r.len + 1 }) ∧
    (∀ m, alView (A.set r.arr (a.set r.len v)) (GoMap.set al n { r with len := r.len + 1 }) m
      = upd (alView A al) n (some (elemsIn A r ++ [v])) m) ∧
    Keeps A al (A.set r.arr (a.set r.len v)) (GoMap.set al n { r with len := r.len + 1 }) := by
  have hA := (List.getElem?_eq_some_iff.1 ha).1
  have hnew : (A.set r.arr (a.set r.len v))[r.arr]? = some (a.set r.len v) := by simp [hA]
  have hother : ∀ q : SliceRef, q.arr ≠ r.arr → (A.set r.arr (a.set r.len v))[q.arr]? = A[q.arr]? := by
    intro q hq; rw [List.getElem?_set_ne (Ne.symm hq)]
  have hsnap : ∀ q, Snap A al q → ValidIn (A.set r.arr (a.set r.len v)) q ∧
      elemsIn (A.set r.arr (a.set r.len v)) q = elemsIn A q := by
    intro q hq
    by_cases he : q.arr = r.arr
    · have hle := hq.2 n r hg he.symm
      refine ⟨⟨a.set r.len v, by rw [he]; exact hnew, by rw [List.length_set]; omega⟩, ?_⟩
      simp only [elemsIn, he, hnew, ha, Option.getD_some]
      rw [List.take_set, List.set_eq_of_length_le]
      simp; omega
    · obtain ⟨b, h1, h2⟩ := hq.1
      exact ⟨⟨b, (hother q he).trans h1, h2⟩, by simp only [elemsIn, hother q he]⟩
  refine ⟨⟨GoMap.nodup_set _ _ _ h.nodup, ?_, ?_⟩, ?_, ?_⟩
  · intro m q hm
    rw [GoMap.get_set] at hm
    split at hm
    · injection hm with hm; subst hm; exact ⟨_, hnew, by simp; omega⟩
    · exact (hsnap q (h.snap hm)).1
  · intro m k q q' hm hk he
    rw [GoMap.get_set] at hm hk
    split at hm <;> split at hk
    · simp_all
    · injection hm with hm; subst hm; rename_i h1 _
      subst h1; exact h.distinct n k r q' hg hk he
    · injection hk with hk; subst hk; rename_i h1
      subst h1; exact h.distinct m n q r hm hg he
    · exact h.distinct m k q q' hm hk he
  · intro m
    unfold alView upd
    rw [GoMap.get_set]
    by_cases hm : m = n
    · subst hm
      simp only [if_true, Option.map_some, elemsIn, hnew, ha, Option.getD_some]
      congr 1
      rw [List.take_add_one, List.take_set_of_le (Nat.le_refl _)]
      simp [hlt]
    · rw [if_neg hm, if_neg (Ne.symm hm)]
      cases hgm : al.get m with
      | none => simp [hgm]
      | some q => simp [hgm, (hsnap q (h.snap hgm)).2]
  · intro q hq
    refine ⟨⟨(hsnap q hq).1, fun m r' hm he => ?_⟩, (hsnap q hq).2⟩
    rw [GoMap.get_set] at hm
    split at hm
    · injection hm with hm; subst hm
      exact Nat.le_succ_of_le (hq.2 n r hg he)
    · exact hq.2 m r' hm he

/-- Deleting an alias. -/
theorem alOk_delete {A : List (List α)} {al} (h : AlOk A al) (n : Name) :
    AlOk A (GoMap.delete al n) ∧
    (∀ m, alView A (GoMap.delete al n) m = upd (alView A al) n none m) ∧
    Keeps A al A (GoMap.delete al n) := by
  refine ⟨⟨GoMap.nodup_delete _ _ h.nodup, ?_, ?_⟩, ?_, ?_⟩
  · intro m r hm
    rw [GoMap.get_delete] at hm
    split at hm
    · simp at hm
    · exact h.valid m r hm
  · intro m k r r' hm hk he
    rw [GoMap.get_delete] at hm hk
    split at hm
    · simp at hm
    · split at hk
      · simp at hk
      · exact h.distinct m k r r' hm hk he
  · intro m
    unfold alView upd
    rw [GoMap.get_delete]
    by_cases hm : m = n
    · subst hm; simp
    · rw [if_neg hm, if_neg (Ne.symm hm)]
  · intro r hr
    refine ⟨⟨hr.1, fun m r' hm he => ?_⟩, rfl⟩
    rw [GoMap.get_delete] at hm
    split at hm
    · simp at hm
    · exact hr.2 m r' hm he

end Visigoth
