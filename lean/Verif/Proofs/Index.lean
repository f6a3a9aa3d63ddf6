import Verif.Proofs.GoMap
import Verif.Spec.Index
import Verif.Model.Index
/-! # The inverted index after a history of Puts -/
namespace Visigoth

theorem buildIndex_append (tok : Tokenizer) (name : Str) (rs : List DocRequest) (r : DocRequest) :
    buildIndex tok name (rs ++ [r]) = (buildIndex tok name rs).put tok r := by
  simp [buildIndex]

theorem rev_ind {α : Type} {P : List α → Prop} (h0 : P []) (h1 : ∀ l a, P l → P (l ++ [a])) :
    ∀ l, P l := by
  intro l
  rw [← List.reverse_reverse l]
  induction l.reverse with
  | nil => exact h0
  | cons a l ih => rw [List.reverse_cons]; exact h1 _ _ ih

theorem buildIndex_docs (tok : Tokenizer) (name : Str) (rs : List DocRequest) :
    (buildIndex tok name rs).docs = rs.map docOf := by
  induction rs using rev_ind with
  | h0 => rfl
  | h1 rs r ih =>
    rw [buildIndex_append]
    simp only [MemoryIndex.put, ih, List.map_append]
    rfl

theorem buildIndex_name (tok : Tokenizer) (name : Str) (rs : List DocRequest) :
    (buildIndex tok name rs).name = name := by
  induction rs using rev_ind with
  | h0 => rfl
  | h1 rs r ih => rw [buildIndex_append]; exact ih

theorem positions_append (tok : Tokenizer) (rs : List DocRequest) (r : DocRequest) (t : Str) :
    positions tok (rs ++ [r]) t
      = positions tok rs t ++ if t ∈ tok r.statement then [rs.length] else [] := by
  unfold positions
  rw [List.length_append, List.length_singleton, List.range_succ, List.filter_append]
  congr 1
  · apply List.filter_congr
    intro i hi
    rw [List.mem_range] at hi
    rw [List.getElem?_append_left hi]
  · simp only [List.filter_cons, List.filter_nil]
    rw [List.getElem?_append_right (Nat.le_refl _)]
    simp [hasToken]

theorem mem_positions (tok : Tokenizer) (rs : List DocRequest) (t : Str) (i : Nat) :
    i ∈ positions tok rs t ↔ ∃ r, rs[i]? = some r ∧ t ∈ tok r.statement := by
  unfold positions
  rw [List.mem_filter, List.mem_range]
  constructor
  · rintro ⟨hi, h⟩
    rw [List.getElem?_eq_getElem hi] at h ⊢
    exact ⟨_, rfl, by simpa [hasToken] using h⟩
  · rintro ⟨r, hr, ht⟩
    refine ⟨(List.getElem?_eq_some_iff.1 hr).1, ?_⟩
    rw [hr]; simpa [hasToken] using ht

theorem positions_lt (tok : Tokenizer) (rs : List DocRequest) (t : Str) :
    ∀ i ∈ positions tok rs t, i < rs.length := by
  intro i hi
  rw [mem_positions] at hi
  obtain ⟨r, hr, -⟩ := hi
  exact (List.getElem?_eq_some_iff.1 hr).1

theorem positions_sorted (tok : Tokenizer) (rs : List DocRequest) (t : Str) :
    (positions tok rs t).Pairwise (· < ·) :=
  List.Pairwise.filter _ List.pairwise_lt_range

theorem addPosting_get (next : Nat) (inv : GoMap Str (List Nat)) (tok t : Str) :
    ((addPosting next inv tok).get t).getD []
      = if t = tok ∧ next ∉ (inv.get t).getD [] then (inv.get t).getD [] ++ [next]
        else (inv.get t).getD [] := by
  unfold addPosting
  dsimp only
  by_cases h : next ∈ (inv.get tok).getD []
  · rw [if_pos h]
    by_cases ht : t = tok
    · subst ht; rw [if_neg (fun hh => hh.2 h)]
    · rw [if_neg (fun hh => ht hh.1)]
  · rw [if_neg h, GoMap.get_set]
    by_cases ht : t = tok
    · subst ht; simp [h]
    · rw [if_neg (fun e => ht e.symm), if_neg (fun hh => ht hh.1)]

/-- Effect of the whole token loop on one posting list. -/
theorem addPostings_get (next : Nat) (toks : List Str) : ∀ (inv : GoMap Str (List Nat)) (t : Str),
    ((toks.foldl (addPosting next) inv).get t).getD []
      = if t ∈ toks ∧ next ∉ (inv.get t).getD [] then (inv.get t).getD [] ++ [next]
        else (inv.get t).getD [] := by
  induction toks with
  | nil => intro inv t; simp
  | cons tok toks ih =>
    intro inv t
    rw [List.foldl_cons, ih, addPosting_get]
    by_cases ht : t = tok
    · subst ht
      by_cases hn : next ∈ (inv.get t).getD []
      · simp [hn]
      · simp [hn]
    · simp [ht]

/-- A posting list present in the map is not empty. -/
theorem addPosting_nonempty (next : Nat) (inv : GoMap Str (List Nat)) (tok : Str)
    (h : ∀ t l, inv.get t = some l → l ≠ []) :
    ∀ t l, (addPosting next inv tok).get t = some l → l ≠ [] := by
  intro t l hl
  unfold addPosting at hl
  dsimp only at hl
  split at hl
  · exact h t l hl
  · rw [GoMap.get_set] at hl
    split at hl
    · injection hl with hl; subst hl; simp
    · exact h t l hl

theorem addPostings_nonempty (next : Nat) (toks : List Str) : ∀ (inv : GoMap Str (List Nat)),
    (∀ t l, inv.get t = some l → l ≠ []) →
    ∀ t l, (toks.foldl (addPosting next) inv).get t = some l → l ≠ [] := by
  induction toks with
  | nil => intro inv h; exact h
  | cons tok toks ih => intro inv h; exact ih _ (addPosting_nonempty next inv tok h)

theorem buildIndex_inverted (tok : Tokenizer) (name : Str) (rs : List DocRequest) (t : Str) :
    ((buildIndex tok name rs).inverted.get t).getD [] = positions tok rs t := by
  induction rs using rev_ind generalizing t with
  | h0 => rfl
  | h1 rs r ih =>
    rw [buildIndex_append, positions_append]
    simp only [MemoryIndex.put]
    rw [addPostings_get, ih, buildIndex_docs, List.length_map]
    have hn : rs.length ∉ positions tok rs t := fun h =>
      absurd (positions_lt tok rs t _ h) (Nat.lt_irrefl _)
    by_cases ht : t ∈ tok r.statement
    · simp [ht, hn]
    · simp [ht]

theorem buildIndex_inverted_nonempty (tok : Tokenizer) (name : Str) (rs : List DocRequest) :
    ∀ t l, (buildIndex tok name rs).inverted.get t = some l → l ≠ [] := by
  induction rs using rev_ind with
  | h0 => intro t l h; simp [buildIndex, newMemoryIndex] at h
  | h1 rs r ih =>
    rw [buildIndex_append]
    simp only [MemoryIndex.put]
    exact addPostings_nonempty _ _ _ ih

theorem buildIndex_inverted_get (tok : Tokenizer) (name : Str) (rs : List DocRequest) (t : Str) :
    (buildIndex tok name rs).inverted.get t
      = if positions tok rs t = [] then none else some (positions tok rs t) := by
  have h1 := buildIndex_inverted tok name rs t
  have h2 := buildIndex_inverted_nonempty tok name rs t
  cases hg : (buildIndex tok name rs).inverted.get t with
  | none => rw [hg] at h1; simp at h1; simp [← h1]
  | some l =>
    rw [hg] at h1; simp at h1
    have := h2 l hg
    rw [← h1, if_neg this]

/-- Same token sets, same postings: keys included. -/
theorem buildIndex_keys_nodup (tok : Tokenizer) (name : Str) (rs : List DocRequest) :
    (buildIndex tok name rs).inverted.keys.Nodup := by
  have step : ∀ (next : Nat) (toks : List Str) (inv : GoMap Str (List Nat)), inv.keys.Nodup →
      (toks.foldl (addPosting next) inv).keys.Nodup := by
    intro next toks
    induction toks with
    | nil => intro inv h; exact h
    | cons t toks ih =>
      intro inv h
      apply ih
      unfold addPosting
      dsimp only
      split
      · exact h
      · exact GoMap.nodup_set _ _ _ h
  induction rs using rev_ind with
  | h0 => simp [buildIndex, newMemoryIndex, GoMap.keys]
  | h1 rs r ih =>
    rw [buildIndex_append]
    exact step _ _ _ ih

/-! ## The index as an `Indexer` -/

theorem indexer_len (cp : CopyFn) (tok : Tokenizer) (name : Str) (rs : List DocRequest) :
    ((buildIndex tok name rs).indexer cp).len = rs.length := by
  simp [MemoryIndex.indexer, MemoryIndex.len, buildIndex_docs]

theorem indexer_document (cp : CopyFn) (tok : Tokenizer) (name : Str) (rs : List DocRequest) (i : Nat) :
    ((buildIndex tok name rs).indexer cp).document i = (rs[i]?).map docOf := by
  simp [MemoryIndex.indexer, MemoryIndex.document, buildIndex_docs]

theorem indexer_indexed (cp : CopyFn) (tok : Tokenizer) (name : Str) (rs : List DocRequest) (t : Str) :
    (((buildIndex tok name rs).indexer cp).indexed t).getD [] = positions tok rs t := by
  simp only [MemoryIndex.indexer, MemoryIndex.indexed]
  rw [cp.contents, buildIndex_inverted]

end Visigoth
