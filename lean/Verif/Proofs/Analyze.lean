import Verif.Proofs.Lower
import Verif.Model.StopWordsTable
/-! # Helper lemmas on tokenizers and filters -/
namespace Visigoth

theorem isSepLoop_eq (fns : List (Rune → Bool)) (r : Rune) :
    isSepLoop fns r = !(fns.any fun f => f r) := by
  induction fns with
  | nil => rfl
  | cons f fns ih =>
    simp only [isSepLoop, List.any_cons]
    cases f r <;> simp [ih]

theorem tokenize_eq (c : CleanTokenizer) (text : Str) :
    c.tokenize text
      = (splitChars (fun r => !(c.fns.any fun f => f r)) none (chars text)).map bytesOf := by
  unfold CleanTokenizer.tokenize
  rw [fieldsFunc_eq]
  have : isSepLoop c.fns = fun r => !(c.fns.any fun f => f r) := by
    funext r; exact isSepLoop_eq _ _
  rw [this]

theorem newCleanTokenizer_fns (fns : List (Rune → Bool)) : (newCleanTokenizer fns).fns = fns := by
  have key : ∀ (c : CleanTokenizer), (fns.foldl CleanTokenizer.register c).fns = c.fns ++ fns := by
    induction fns with
    | nil => intro c; simp
    | cons f fns ih =>
      intro c
      rw [List.foldl_cons, ih]
      simp [CleanTokenizer.register]
  simpa [newCleanTokenizer] using key { fns := [] }

theorem foldl_push {α β : Type} (f : α → β) (l : List α) (r : List β) :
    l.foldl (fun r x => r ++ [f x]) r = r ++ l.map f := by
  induction l generalizing r with
  | nil => simp
  | cons x l ih => rw [List.foldl_cons, ih]; simp

theorem GoMap.get_isSome_iff {K V : Type} [DecidableEq K] (m : GoMap K V) (k : K) :
    (m.get k).isSome = true ↔ k ∈ m.keys := by
  induction m with
  | nil => simp [GoMap.get, GoMap.keys]
  | cons e m ih =>
    obtain ⟨k', v⟩ := e
    simp only [GoMap.get, GoMap.keys, List.map_cons, List.mem_cons]
    by_cases h : k' = k
    · simp [h]
    · rw [if_neg h, ih]
      simp only [GoMap.keys]
      constructor
      · exact .inr
      · rintro (h' | h')
        · exact absurd h'.symm h
        · exact h'

theorem stopWords_foldl (sw : StopWords) (l r : List Str) :
    l.foldl (fun r tok => match sw.get tok with
      | some _ => r
      | none => r ++ [tok]) r = r ++ l.filter (fun t => decide (t ∉ sw.keys)) := by
  induction l generalizing r with
  | nil => simp
  | cons t l ih =>
    rw [List.foldl_cons, ih, List.filter_cons]
    have h := GoMap.get_isSome_iff sw t
    cases hg : sw.get t with
    | some u =>
      rw [hg] at h
      have : t ∈ sw.keys := h.1 rfl
      simp [this]
    | none =>
      rw [hg] at h
      have : t ∉ sw.keys := fun hm => by simpa using h.2 hm
      simp [this]

end Visigoth
