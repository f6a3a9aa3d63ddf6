import Verif.Proofs.Sort
import Verif.Props.Search
/-!
# C67: sorting search results through `sort.Interface`

`sort.Sort` is documented to leave `data` sorted, i.e. `sort.IsSorted(data)`: no element is less than the
one before it.  That the result is a rearrangement of the input is not part of that promise; it follows
from `SearchResults.Swap` being the only way to write.
-/
namespace Visigoth

/-- What the documentation of `sort.Sort` promises about an algorithm: it does not index out of range
and afterwards no element is less than its predecessor. -/
def SortsInPlace (alg : Nat → SortProg) : Prop :=
  ∀ r : SearchResults, ∃ r', (alg (SearchResults.len r)).run r = some r' ∧
    ∀ i, i + 1 < r'.length → SearchResults.less r' (i + 1) i = some false

/-- Whatever an algorithm does through the three methods, the slice afterwards is a rearrangement of
the slice before. -/
theorem C67_only_rearranges (p : SortProg) (r r' : SearchResults) (h : p.run r = some r') :
    r'.Perm r :=
  sortProg_perm p r r' h

/-- `Swap` exchanges two elements and touches nothing else. -/
theorem C67_swap_exact (r r' : SearchResults) (i j : Nat) (h : SearchResults.swap r i j = some r') :
    r'[i]? = r[j]? ∧ r'[j]? = r[i]? ∧ r'.length = r.length ∧
      ∀ k, k ≠ i → k ≠ j → r'[k]? = r[k]? := by
  unfold SearchResults.swap at h
  split at h
  · next a b ha hb =>
    injection h with h
    subst h
    obtain ⟨hi, hia⟩ := List.getElem?_eq_some_iff.1 ha
    obtain ⟨hj, hjb⟩ := List.getElem?_eq_some_iff.1 hb
    refine ⟨?_, ?_, by simp, ?_⟩
    · by_cases e : j = i
      · subst e; rw [List.getElem?_set_self (by simpa using hj), hb, ← hb, ha]
      · rw [List.getElem?_set_ne e, List.getElem?_set_self hi, hb]
    · rw [List.getElem?_set_self (by simpa using hj), ha]
    · intro k h1 h2
      rw [List.getElem?_set_ne (Ne.symm h2), List.getElem?_set_ne (Ne.symm h1)]
  · exact absurd h (by simp)

/-- `Less` and `Swap` panic exactly on positions out of range. -/
theorem C67_in_range (r : SearchResults) (i j : Nat) :
    ((SearchResults.less r i j).isSome ↔ i < SearchResults.len r ∧ j < SearchResults.len r) ∧
      ((SearchResults.swap r i j).isSome ↔ i < SearchResults.len r ∧ j < SearchResults.len r) := by
  unfold SearchResults.less SearchResults.swap SearchResults.len
  by_cases hi : i < r.length
  · by_cases hj : j < r.length
    · simp [hi, hj]
    · simp [hi, hj]
  · simp [hi]

/-- An algorithm that keeps the documented promise satisfies the contract the theorems about
`HitsSearch` assume: the result is a rearrangement in which no element is less than any earlier one. -/
theorem C67_contract (alg : Nat → SortProg) (h : SortsInPlace alg) : SortContract (sortWith alg) := by
  intro l
  obtain ⟨l', h1, h2⟩ := h l
  have he : sortWith alg l = l' := by unfold sortWith; rw [h1]; rfl
  rw [he]
  refine ⟨sortProg_perm _ _ _ h1, inOrder_of_adjacent _ ?_⟩
  intro i a b ha hb
  have hlt : i + 1 < l'.length := (List.getElem?_eq_some_iff.1 hb).1
  have := h2 i hlt
  unfold SearchResults.less at this
  rw [ha, hb] at this
  simpa using this

/-- The algorithm `sort.Sort` uses on short slices keeps the promise (on slices of any length). -/
theorem C67_insertion_sort : SortsInPlace insertionSort := by
  intro r
  obtain ⟨L, h1, h2⟩ := insertionSort_run r
  refine ⟨L, h1, ?_⟩
  intro i hi
  unfold SearchResults.less
  rw [List.getElem?_eq_getElem hi, List.getElem?_eq_getElem (Nat.lt_of_succ_lt hi)]
  simp only [Option.some.injEq]
  exact List.pairwise_iff_getElem.1 h2 i (i + 1) _ hi (Nat.lt_succ_self i)

/-- `HitsSearch` with any algorithm that keeps the promise gives the list it gives with insertion
sort. -/
theorem C67_hits_search (alg : Nat → SortProg) (h : SortsInPlace alg) (cp : CopyFn) (tok : Tokenizer)
    (name : Str) (rs : List DocRequest) (tokens : List Str) :
    hitsSearch (sortWith alg) tokens ((buildIndex tok name rs).indexer cp)
      = hitsSearch (sortWith insertionSort) tokens ((buildIndex tok name rs).indexer cp) :=
  C19_independent_of_sort _ _ (C67_contract alg h) (C67_contract _ C67_insertion_sort) cp tok name rs tokens

/-- The accessors of a result. -/
theorem C67_accessors (d : Doc) (n : Nat) :
    (SearchResult.mk d n).getDoc = d ∧ (SearchResult.mk d n).doc = d ∧ (SearchResult.mk d n).getHits = n :=
  ⟨rfl, rfl, rfl⟩

/-- Three results out of order, sorted by the algorithm of package `sort`. -/
example :
    let a : SearchResult := ⟨⟨str "a", []⟩, 1⟩
    let b : SearchResult := ⟨⟨str "b", []⟩, 2⟩
    let c : SearchResult := ⟨⟨str "c", []⟩, 2⟩
    sortWith insertionSort [a, c, b] = [b, c, a] := by decide +kernel

/-- Without the promise the contract fails: the algorithm that does nothing only rearranges. -/
example : ¬ SortsInPlace (fun _ => .done) := by
  intro h
  obtain ⟨r', h1, h2⟩ := h [⟨⟨str "a", []⟩, 1⟩, ⟨⟨str "b", []⟩, 2⟩]
  injection h1 with h1
  subst h1
  exact absurd (h2 0 (by decide)) (by decide +kernel)

end Visigoth
