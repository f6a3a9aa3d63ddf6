import Verif.Proofs.Indexer
import Verif.Props.Sort
/-!
# Searching an index of one's own (C100)

The engines are functions of the exported interface `Indexer` (search_search.go:15-22).  Here they are given
any implementation of it, not only a `MemoryIndex`.
-/
namespace Visigoth

/-! ## `LinearSearch` -/

/-- Whatever the index: the results are documents at positions taken from the list of the first token, in its
order, each of them listed under every token; and the search panics if one of them does not exist. -/
theorem C100_linear_any_index (ix : Indexer) (t : Str) (ts : List Str) :
    ∃ ps : List Nat, ps.Sublist (ix.listed t) ∧ (∀ i ∈ ps, ∀ s ∈ t :: ts, i ∈ ix.listed s) ∧
      linearSearch (t :: ts) ix = (ix.docsAt ps).map fun ds =>
        ds.map fun d => { document := d, hits := (t :: ts).length } := by
  have h := narrowed_sublist ix ts (ix.listed t)
  refine ⟨_, h.1, ?_, linearSearch_any ix t ts⟩
  intro i hi s hs
  rcases List.mem_cons.1 hs with rfl | hs
  · exact h.1.subset hi
  · exact h.2 i hi s hs

/-- If the lists are sorted, repetitions allowed, a position is found as many times as every list has it. -/
theorem C100_linear_sorted_lists (ix : Indexer) (tokens : List Str) (hne : tokens ≠ [])
    (hs : ∀ t ∈ tokens, (ix.listed t).Pairwise (· ≤ ·)) :
    ∃ ps : List Nat, ps.Pairwise (· ≤ ·) ∧
      (∀ i k, k ≤ ps.count i ↔ ∀ t ∈ tokens, k ≤ (ix.listed t).count i) ∧
      linearSearch tokens ix = (ix.docsAt ps).map fun ds =>
        ds.map fun d => { document := d, hits := tokens.length } := by
  cases tokens with
  | nil => exact absurd rfl hne
  | cons t ts =>
    refine ⟨_, (hs t (by simp)).sublist (narrowed_sublist ix ts _).1, ?_, linearSearch_any ix t ts⟩
    intro i k
    rw [narrowed_count ix ts _ (hs t (by simp)) (fun s h => hs s (by simp [h]))]
    simp

/-- An index that keeps the contract is searched correctly. -/
theorem C100_linear_lawful (ix : Indexer) (tokens : List Str) (h : ix.Lawful tokens) :
    linearSearch tokens ix = some (ix.answers tokens) := by
  by_cases hne : tokens = []
  · subst hne; rfl
  · obtain ⟨ps, h1, h2, h3⟩ := C100_linear_sorted_lists ix tokens hne
      (fun t ht => (h.sorted t ht).imp Nat.le_of_lt)
    have hmem : ∀ i, i ∈ ps ↔ ∀ t ∈ tokens, i ∈ ix.listed t := by
      intro i
      have := h2 i 1
      simp only [Nat.succ_le_iff, List.count_pos_iff] at this
      exact this
    obtain ⟨t0, ht0⟩ := List.exists_mem_of_ne_nil _ hne
    have hnd : ps.Nodup := by
      rw [List.nodup_iff_count]
      intro i
      apply Nat.le_of_not_lt
      intro hc
      have := (h2 i 2).1 hc t0 ht0
      have := (List.nodup_iff_count.1 (sorted_nodup (h.sorted t0 ht0))) i
      omega
    have hps : ps = (List.range ix.len).filter fun i => decide (∀ t ∈ tokens, i ∈ ix.listed t) := by
      apply List.Perm.eq_of_pairwise (le := (· ≤ ·))
      · intro x y _ _ h1 h2; omega
      · exact h1
      · exact (List.Pairwise.filter _ List.pairwise_lt_range).imp Nat.le_of_lt
      · apply (List.perm_ext_iff_of_nodup hnd (sorted_nodup (List.Pairwise.filter _ List.pairwise_lt_range))).2
        intro i
        simp only [List.mem_filter, List.mem_range, decide_eq_true_eq, hmem]
        exact ⟨fun hi => ⟨h.within t0 ht0 i (hi t0 ht0), hi⟩, fun hi => hi.2⟩
    rw [h3, docsAt_some fun i hi => h.docs i (h.within t0 ht0 i ((hmem i).1 hi t0 ht0))]
    unfold Indexer.answers
    rw [if_neg hne, ← hps, Option.map_some, List.map_filterMap]

/-! ## `HitsSearch` -/

/-- What `HitsSearch` answers, whatever the index. -/
theorem C100_hits_any_index (sort : List SearchResult → List SearchResult) (ix : Indexer)
    (tokens : List Str) :
    hitsSearch sort tokens ix =
      match ix.docsAt (tokens.flatMap ix.listed), ix.docsAt (List.range ix.len) with
      | some met, some all => some (sort (collected met all tokens.length))
      | _, _ => none :=
  hitsSearch_any sort ix tokens

/-- For every index that keeps the contract, and every query, some `MemoryIndex` gives the same results with
every engine. -/
theorem C100_like_memory_index (ix : Indexer) (tokens : List Str) (h : ix.Lawful tokens) :
    ∃ (tok : Tokenizer) (rs : List DocRequest), ∀ (name : Str) (cp : CopyFn),
      (∀ sort, hitsSearch sort tokens ix
        = hitsSearch sort tokens ((buildIndex tok name rs).indexer cp)) ∧
      linearSearch tokens ix = linearSearch tokens ((buildIndex tok name rs).indexer cp) ∧
      noopAllSearch tokens ix = noopAllSearch tokens ((buildIndex tok name rs).indexer cp) ∧
      noopZeroSearch tokens ix = noopZeroSearch tokens ((buildIndex tok name rs).indexer cp) ∧
      (buildIndex tok name rs).len = ix.len := by
  refine ⟨sayTok ix tokens, sayDocs ix, fun name cp => ?_⟩
  have hdoc : ∀ i, i < ix.len →
      ix.document i = ((buildIndex (sayTok ix tokens) name (sayDocs ix)).indexer cp).document i := by
    intro i hi
    obtain ⟨d, hd⟩ := h.docs i hi
    rw [indexer_document, sayDocs_get ix i d hi hd, hd]
  have hs : SeenAlike tokens ix ((buildIndex (sayTok ix tokens) name (sayDocs ix)).indexer cp) := by
    refine ⟨?_, ?_, fun t ht i hi => hdoc i (h.within t ht i hi), hdoc⟩
    · rw [indexer_len, sayDocs_length]
    · intro t ht
      unfold Indexer.listed
      rw [indexer_indexed, sayDocs_positions ix tokens h t ht]; rfl
  refine ⟨hs.hits, hs.linear, hs.noopAll, rfl, ?_⟩
  have := indexer_len cp (sayTok ix tokens) name (sayDocs ix)
  rw [sayDocs_length] at this
  exact this

theorem sayDocs_distinct (ix : Indexer) (h : ix.DistinctDocs)
    (hd : ∀ i, i < ix.len → ∃ d, ix.document i = some d) : DistinctHashes (sayDocs ix) := by
  unfold DistinctHashes
  rw [List.pairwise_iff_getElem]
  intro i j hi hj hij heq
  rw [sayDocs_length] at hi hj
  obtain ⟨d, hd1⟩ := hd i hi
  obtain ⟨e, he1⟩ := hd j hj
  have h1 := sayDocs_get ix i d hi hd1
  have h2 := sayDocs_get ix j e hj he1
  rw [List.getElem?_eq_getElem (by rw [sayDocs_length]; exact hi), Option.map_some,
    Option.some.injEq] at h1
  rw [List.getElem?_eq_getElem (by rw [sayDocs_length]; exact hj), Option.map_some,
    Option.some.injEq] at h2
  rw [h1, h2] at heq
  have := h i j hi hj d e hd1 he1 heq
  omega

/-- If moreover no two documents have the same hash, `HitsSearch` finds the same, ordered by ID. -/
theorem C100_hits_lawful (sort : List SearchResult → List SearchResult) (hs : SortContract sort)
    (ix : Indexer) (tokens : List Str) (h : ix.Lawful tokens) (hd : ix.DistinctDocs) :
    ∃ out, hitsSearch sort tokens ix = some out ∧ out.Perm (ix.answers tokens) ∧
      out.Pairwise fun a b => a.document.id ≤ b.document.id := by
  have hx : hitsSearch sort tokens ix = some (sort (ix.answers tokens)) := by
    have hdoc : ∀ i, i < ix.len → ix.document i
        = ((buildIndex (sayTok ix tokens) [] (sayDocs ix)).indexer plainCopy).document i := by
      intro i hi
      obtain ⟨d, hd⟩ := h.docs i hi
      rw [indexer_document, sayDocs_get ix i d hi hd, hd]
    have hsa : SeenAlike tokens ix
        ((buildIndex (sayTok ix tokens) [] (sayDocs ix)).indexer plainCopy) := by
      refine ⟨?_, ?_, fun t ht i hi => hdoc i (h.within t ht i hi), hdoc⟩
      · rw [indexer_len, sayDocs_length]
      · intro t ht
        unfold Indexer.listed
        rw [indexer_indexed, sayDocs_positions ix tokens h t ht]; rfl
    have h1 := C100_linear_lawful ix tokens h
    rw [hsa.linear, linearSearch_eq, Option.some.injEq] at h1
    rw [hsa.hits, hitsSearch_eq, hitsCollected_distinct _ _ (sayDocs_distinct ix hd h.docs), h1]
  refine ⟨_, hx, (hs _).1, ?_⟩
  have hp := (hs (ix.answers tokens)).2
  apply List.Pairwise.imp_of_mem _ hp
  intro a b ha hb hab
  have hh : ∀ r ∈ sort (ix.answers tokens), r.hits = tokens.length := by
    intro r hr
    have := (hs (ix.answers tokens)).1.subset hr
    unfold Indexer.answers at this
    split at this
    · simp at this
    · obtain ⟨i, _, hi⟩ := List.mem_filterMap.1 this
      obtain ⟨d, _, rfl⟩ := Option.map_eq_some_iff.1 hi
      rfl
  rw [not_less_iff, hh a ha, hh b hb] at hab
  rcases hab with hab | hab
  · omega
  · exact hab.2

/-! ## `NoopAllSearch` and panics -/

/-- `NoopAllSearch` asks for the documents up to the length, and for nothing else. -/
theorem C100_noop_all (ix : Indexer) (tokens : List Str) :
    noopAllSearch tokens ix = (ix.docsAt (List.range ix.len)).map fun ds =>
      ds.map fun d => { document := d, hits := 0 } :=
  toResults_any ix 0 _

/-- `HitsSearch` panics exactly if a document listed under a token of the query or below the length does not
exist. -/
theorem C100_hits_panics (sort : List SearchResult → List SearchResult) (ix : Indexer) (tokens : List Str) :
    hitsSearch sort tokens ix = none ↔
      ∃ i, ix.document i = none ∧ (i < ix.len ∨ ∃ t ∈ tokens, i ∈ ix.listed t) := by
  rw [hitsSearch_any]
  have h1 := docsAt_none (ix := ix) (ps := tokens.flatMap ix.listed)
  have h2 := docsAt_none (ix := ix) (ps := List.range ix.len)
  have e : (∃ i, ix.document i = none ∧ (i < ix.len ∨ ∃ t ∈ tokens, i ∈ ix.listed t)) ↔
      ix.docsAt (tokens.flatMap ix.listed) = none ∨ ix.docsAt (List.range ix.len) = none := by
    rw [h1, h2]
    constructor
    · rintro ⟨i, hi, hl | ⟨t, ht, hm⟩⟩
      · exact .inr ⟨i, List.mem_range.2 hl, hi⟩
      · exact .inl ⟨i, List.mem_flatMap.2 ⟨t, ht, hm⟩, hi⟩
    · rintro (⟨i, hm, hi⟩ | ⟨i, hm, hi⟩)
      · obtain ⟨t, ht, hm⟩ := List.mem_flatMap.1 hm
        exact ⟨i, hi, .inr ⟨t, ht, hm⟩⟩
      · exact ⟨i, hi, .inl (List.mem_range.1 hm)⟩
  rw [e]
  cases ix.docsAt (tokens.flatMap ix.listed) <;> cases ix.docsAt (List.range ix.len) <;> simp

/-- `LinearSearch` on sorted lists panics exactly if a position listed under every token has no document: it
never asks for another one. -/
theorem C100_linear_panics (ix : Indexer) (tokens : List Str)
    (hs : ∀ t ∈ tokens, (ix.listed t).Pairwise (· ≤ ·)) :
    linearSearch tokens ix = none ↔
      tokens ≠ [] ∧ ∃ i, ix.document i = none ∧ ∀ t ∈ tokens, i ∈ ix.listed t := by
  by_cases hne : tokens = []
  · subst hne; simp [linearSearch]
  · obtain ⟨ps, _, h2, h3⟩ := C100_linear_sorted_lists ix tokens hne hs
    rw [h3, Option.map_eq_none_iff, docsAt_none]
    have hmem : ∀ i, i ∈ ps ↔ ∀ t ∈ tokens, i ∈ ix.listed t := by
      intro i
      have := h2 i 1
      simp only [Nat.succ_le_iff, List.count_pos_iff] at this
      exact this
    constructor
    · rintro ⟨i, hi, hd⟩; exact ⟨hne, i, hd, (hmem i).1 hi⟩
    · rintro ⟨_, i, hd, hi⟩; exact ⟨i, (hmem i).2 hi, hd⟩

/-- `NoopAllSearch` panics exactly if a document below the length does not exist. -/
theorem C100_noop_all_panics (ix : Indexer) (tokens : List Str) :
    noopAllSearch tokens ix = none ↔ ∃ i, i < ix.len ∧ ix.document i = none := by
  rw [C100_noop_all, Option.map_eq_none_iff, docsAt_none]
  simp

/-! ## What the engines look at -/

/-- No engine sees a difference between two indexes of one length that list the same under the tokens of the
query and have the same documents: in particular it does not matter whether an empty list is nil. -/
theorem C100_nil_or_empty (sort : List SearchResult → List SearchResult) (ix ix' : Indexer)
    (tokens : List Str) (hlen : ix.len = ix'.len) (hl : ∀ t ∈ tokens, ix.listed t = ix'.listed t)
    (hd : ∀ i, ix.document i = ix'.document i) :
    hitsSearch sort tokens ix = hitsSearch sort tokens ix' ∧
    linearSearch tokens ix = linearSearch tokens ix' ∧
    noopAllSearch tokens ix = noopAllSearch tokens ix' ∧
    noopZeroSearch tokens ix = noopZeroSearch tokens ix' := by
  have h : SeenAlike tokens ix ix' := ⟨hlen, hl, fun _ _ i _ => hd i, fun i _ => hd i⟩
  exact ⟨h.hits sort, h.linear, h.noopAll, rfl⟩

/-! ## The contract is needed -/

/-- Three documents, the tokens `x` and `y`. -/
def ownIndex (len : Nat) (x y : List Nat) : Indexer where
  len := len
  indexed := fun t => if t = str "x" then some x else if t = str "y" then some y else none
  document := fun i => [newDoc (str "c") (str "1"), newDoc (str "b") (str "2"), newDoc (str "a") (str "3")][i]?

/-- With the contract broken in one way, the engines go wrong in these ways: an unsorted list makes
`LinearSearch` lose a document; a repetition makes `HitsSearch` find a document listed under only one of the
tokens, and `LinearSearch` find a document twice; a position without a document makes both panic; a document listed beyond
the length is found by `LinearSearch` only. -/
theorem C100_contract_needed :
    (linearSearch [str "x", str "y"] (ownIndex 3 [1, 0] [0, 1]) = some [⟨newDoc (str "b") (str "2"), 2⟩] ∧
      (ownIndex 3 [1, 0] [0, 1]).answers [str "x", str "y"]
        = [⟨newDoc (str "c") (str "1"), 2⟩, ⟨newDoc (str "b") (str "2"), 2⟩]) ∧
    (hitsSearch sampleSort [str "x", str "y"] (ownIndex 3 [0, 0] [1])
        = some [⟨newDoc (str "c") (str "1"), 2⟩] ∧
      (ownIndex 3 [0, 0] [1]).answers [str "x", str "y"] = [] ∧
      linearSearch [str "x"] (ownIndex 3 [0, 0] [1])
        = some [⟨newDoc (str "c") (str "1"), 1⟩, ⟨newDoc (str "c") (str "1"), 1⟩]) ∧
    (linearSearch [str "x"] (ownIndex 3 [7] []) = none ∧
      hitsSearch sampleSort [str "x", str "y"] (ownIndex 3 [7] []) = none ∧
      linearSearch [str "x", str "y"] (ownIndex 3 [7] []) = some []) ∧
    (linearSearch [str "x"] (ownIndex 2 [2] []) = some [⟨newDoc (str "a") (str "3"), 1⟩] ∧
      hitsSearch sampleSort [str "x"] (ownIndex 2 [2] []) = some []) := by
  refine ⟨⟨?_, ?_⟩, ⟨?_, ?_, ?_⟩, ⟨?_, ?_, ?_⟩, ⟨?_, ?_⟩⟩ <;> decide +kernel

/-! ## A case -/

theorem own_lawful : (ownIndex 3 [0, 2] [0, 1, 2]).Lawful [str "x", str "y"] := by
  refine ⟨?_, ?_, ?_⟩
  · intro i (hi : i < 3)
    match i, hi with
    | 0, _ => exact ⟨_, rfl⟩
    | 1, _ => exact ⟨_, rfl⟩
    | 2, _ => exact ⟨_, rfl⟩
  · decide +kernel
  · decide +kernel

theorem own_distinct : (ownIndex 3 [0, 2] [0, 1, 2]).DistinctDocs := by
  have h : ∀ i, i < 3 → ∀ j, j < 3 → ((ownIndex 3 [0, 2] [0, 1, 2]).document i).map Doc.hash
      = ((ownIndex 3 [0, 2] [0, 1, 2]).document j).map Doc.hash → i = j := by decide +kernel
  intro i j hi hj d e hd he heq
  exact h i hi j hj (by rw [hd, he]; simp [heq])

example : linearSearch [str "x", str "y"] (ownIndex 3 [0, 2] [0, 1, 2])
    = some [⟨newDoc (str "c") (str "1"), 2⟩, ⟨newDoc (str "a") (str "3"), 2⟩] ∧
    hitsSearch (sortWith insertionSort) [str "x", str "y"] (ownIndex 3 [0, 2] [0, 1, 2])
    = some [⟨newDoc (str "a") (str "3"), 2⟩, ⟨newDoc (str "c") (str "1"), 2⟩] := by
  refine ⟨?_, ?_⟩ <;> decide +kernel

/-- Sorted lists with repetitions. -/
example : (∀ t ∈ [str "x", str "y"], ((ownIndex 3 [0, 0, 2, 2, 2] [0, 2, 2]).listed t).Pairwise (· ≤ ·)) ∧
    linearSearch [str "x", str "y"] (ownIndex 3 [0, 0, 2, 2, 2] [0, 2, 2])
    = some [⟨newDoc (str "c") (str "1"), 2⟩, ⟨newDoc (str "a") (str "3"), 2⟩,
        ⟨newDoc (str "a") (str "3"), 2⟩] := by
  refine ⟨?_, ?_⟩ <;> decide +kernel

end Visigoth
