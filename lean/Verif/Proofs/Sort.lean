import Verif.Model.Sort
import Verif.Proofs.Hits
/-! Lemmas about sorting through `sort.Interface`. -/
namespace Visigoth

/-- No element is less than an earlier one. -/
abbrev InOrder (l : List SearchResult) : Prop := l.Pairwise fun a b => less b a = false

theorem swap_perm (r r' : SearchResults) (i j : Nat) (h : SearchResults.swap r i j = some r') :
    r'.Perm r := by
  unfold SearchResults.swap at h
  split at h
  · next a b ha hb =>
    injection h with h
    subst h
    obtain ⟨hi, rfl⟩ := List.getElem?_eq_some_iff.1 ha
    obtain ⟨hj, rfl⟩ := List.getElem?_eq_some_iff.1 hb
    exact List.set_set_perm hi hj
  · exact absurd h (by simp)

theorem sortProg_perm (p : SortProg) (r r' : SearchResults) (h : p.run r = some r') : r'.Perm r := by
  induction p generalizing r with
  | done => injection h with h; subst h; exact .refl _
  | less i j k ih =>
    simp only [SortProg.run] at h
    split at h
    · exact ih _ _ h
    · exact absurd h (by simp)
  | swap i j k ih =>
    simp only [SortProg.run] at h
    split at h
    · next r1 hr => exact (ih _ h).trans (swap_perm _ _ _ _ hr)
    · exact absurd h (by simp)

theorem inOrder_of_adjacent (l : List SearchResult)
    (h : ∀ (i : Nat) (a b : SearchResult), l[i]? = some a → l[i + 1]? = some b → less b a = false) :
    InOrder l := by
  induction l with
  | nil => exact .nil
  | cons x l ih =>
    have ih := ih (fun i a b ha hb => h (i + 1) a b (by simpa using ha) (by simpa using hb))
    refine List.pairwise_cons.2 ⟨?_, ih⟩
    cases l with
    | nil => intro a ha; simp at ha
    | cons y l =>
      have hxy : less y x = false := h 0 x y rfl rfl
      intro a ha
      rcases List.mem_cons.1 ha with rfl | ha
      · exact hxy
      · exact not_less_trans _ _ _ hxy ((List.pairwise_cons.1 ih).1 a ha)

theorem less_at (A B : List SearchResult) (y x : SearchResult) :
    SearchResults.less (A ++ y :: x :: B) (A.length + 1) A.length = some (less x y) := by
  unfold SearchResults.less
  simp

theorem swap_at (A B : List SearchResult) (y x : SearchResult) :
    SearchResults.swap (A ++ y :: x :: B) (A.length + 1) A.length = some (A ++ x :: y :: B) := by
  unfold SearchResults.swap
  simp

theorem siftDown_run (k : SortProg) (C : List SearchResult) (x : SearchResult) :
    ∀ (n : Nat) (A B : List SearchResult), A.length = n → InOrder (A ++ B) →
      (∀ b ∈ B, less b x = false) →
      ∃ L, InOrder L ∧ L.length = A.length + 1 + B.length ∧
        (siftDown k A.length).run (A ++ x :: (B ++ C)) = k.run (L ++ C) := by
  intro n
  induction n with
  | zero =>
    intro A B hA ho hx
    obtain rfl := List.length_eq_zero_iff.1 hA
    exact ⟨x :: B, List.pairwise_cons.2 ⟨hx, ho⟩, by simp; omega, rfl⟩
  | succ n ih =>
    intro A B hA ho hx
    obtain ⟨A', y, rfl⟩ : ∃ A' y, A = A' ++ [y] :=
      ⟨A.dropLast, A.getLast (by intro h; simp [h] at hA), (List.dropLast_concat_getLast _).symm⟩
    have hlen : A'.length = n := by simpa using hA
    have hl : (A' ++ [y]).length = A'.length + 1 := by simp
    have hs : A' ++ [y] ++ x :: (B ++ C) = A' ++ y :: x :: (B ++ C) := by simp
    have ho' : InOrder (A' ++ y :: B) := by simpa using ho
    rw [hl, hs]
    simp only [siftDown, SortProg.run, less_at]
    cases hc : less x y with
    | true =>
      simp only [if_true, SortProg.run, swap_at]
      have hyx : less y x = false := by
        rcases not_less_total x y with h | h
        · exact h
        · rw [hc] at h; exact absurd h (by simp)
      obtain ⟨L, h1, h2, h3⟩ := ih A' (y :: B) hlen ho' (by
        intro b hb
        rcases List.mem_cons.1 hb with rfl | hb
        · exact hyx
        · exact hx b hb)
      refine ⟨L, h1, by simp at h2 ⊢; omega, ?_⟩
      rw [← h3]; simp
    | false =>
      refine ⟨A' ++ y :: x :: B, ?_, by simp; omega, by simp⟩
      unfold InOrder at ho' ⊢
      rw [List.pairwise_append] at ho' ⊢
      obtain ⟨h1, h2, h3⟩ := ho'
      obtain ⟨h4, h5⟩ := List.pairwise_cons.1 h2
      refine ⟨h1, List.pairwise_cons.2 ⟨?_, List.pairwise_cons.2 ⟨hx, h5⟩⟩, ?_⟩
      · intro b hb
        rcases List.mem_cons.1 hb with rfl | hb
        · exact hc
        · exact h4 b hb
      · intro a ha b hb
        have hay := h3 a ha y (by simp)
        rcases List.mem_cons.1 hb with rfl | hb
        · exact hay
        · rcases List.mem_cons.1 hb with rfl | hb
          · exact not_less_trans _ _ _ hay hc
          · exact h3 a ha b (by simp [hb])

theorem insertionFrom_run : ∀ (n : Nat) (P C : List SearchResult), C.length = n → InOrder P →
    ∃ L, (insertionFrom P.length n).run (P ++ C) = some L ∧ InOrder L := by
  intro n
  induction n with
  | zero =>
    intro P C hC hP
    obtain rfl := List.length_eq_zero_iff.1 hC
    exact ⟨P, by simp [insertionFrom, SortProg.run], hP⟩
  | succ n ih =>
    intro P C hC hP
    cases C with
    | nil => simp at hC
    | cons x C =>
      obtain ⟨L, h1, h2, h3⟩ := siftDown_run (insertionFrom (P.length + 1) n) C x P.length P [] rfl
        (by simpa using hP) (by simp)
      have hL : L.length = P.length + 1 := by simpa using h2
      obtain ⟨L', h4, h5⟩ := ih L C (by simpa using hC) h1
      refine ⟨L', ?_, h5⟩
      rw [insertionFrom]
      simp only [List.nil_append] at h3
      rw [h3, ← hL, h4]

theorem insertionSort_run (l : List SearchResult) :
    ∃ L, (insertionSort l.length).run l = some L ∧ InOrder L := by
  cases l with
  | nil => exact ⟨[], rfl, .nil⟩
  | cons x l =>
    have := insertionFrom_run l.length [x] l rfl (List.pairwise_singleton _ _)
    simpa [insertionSort] using this

end Visigoth
