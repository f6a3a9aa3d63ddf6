import Verif.Proofs.Width
import Verif.Props.Search
/-!
# Hit counts and the width of `int` (C102)

`Hits` is an `int` and `HitsSearch` counts with `result.Hits++` (search_hits_search.go:66), which wraps around.
The claim says that the count is right anyway.  It is false: `C102_refuted`.
-/
namespace Visigoth

/-- The claim: the hits are counted as if `int` had no bounds, whatever has been put and whatever is searched. -/
def C102_claim (w : Nat) : Prop :=
  ∀ (sort : List IntResult → List IntResult) (cp : CopyFn) (tok : Tokenizer) (name : Str) (rs : List DocRequest)
    (tokens : List Str), SortContractInt sort → rs.length < 2 ^ (w - 1) → tokens.length < 2 ^ (w - 1) →
    RightHits w sort tokens ((buildIndex tok name rs).indexer cp)

/-- Exactly when the count is right, for any implementation of the interface `Indexer`. -/
theorem C102_exact_any_index {w : Nat} (hw : 2 ≤ w) {sort : List IntResult → List IntResult} (hs : SortContractInt sort)
    {tokens : List Str} (ht : tokens.length < 2 ^ (w - 1)) {ix : Indexer}
    (hd : ∀ i, i < ix.len → ∃ d, ix.document i = some d) :
    RightHits w sort tokens ix ↔ ix.Countable w tokens :=
  ⟨countable_of hw hs ht hd, rightHits_of hw hs⟩

/-- Exactly when the count is right, for a `MemoryIndex`: no document ID occurs too often. -/
theorem C102_exact {w : Nat} (hw : 2 ≤ w) {sort : List IntResult → List IntResult} (hs : SortContractInt sort)
    (cp : CopyFn) (tok : Tokenizer) (name : Str) (rs : List DocRequest) {tokens : List Str}
    (ht : tokens.length < 2 ^ (w - 1)) :
    RightHits w sort tokens ((buildIndex tok name rs).indexer cp) ↔
      ∀ r ∈ rs, (occurrences tok rs tokens (docOf r).hash).length < 2 ^ (w - 1) := by
  rw [C102_exact_any_index hw hs ht, countable_memory]
  intro i hi
  rw [indexer_len] at hi
  exact ⟨docOf rs[i], by rw [indexer_document, List.getElem?_eq_getElem hi]; rfl⟩

/-- Missing from the claim: indexes in which one ID occurs more than once. -/
theorem C102_distinct_ids_partial {w : Nat} (hw : 2 ≤ w) {sort : List IntResult → List IntResult} (hs : SortContractInt sort)
    (cp : CopyFn) (tok : Tokenizer) (name : Str) (rs : List DocRequest) (hd : DistinctHashes rs) {tokens : List Str}
    (ht : tokens.length < 2 ^ (w - 1)) :
    RightHits w sort tokens ((buildIndex tok name rs).indexer cp) :=
  (C102_exact hw hs cp tok name rs ht).2 fun _ hr =>
    Nat.lt_of_le_of_lt (occurrences_distinct_le hd tokens hr) ht

/-- Missing from the claim: so many documents and tokens that their product is not an `int`. -/
theorem C102_small_partial {w : Nat} (hw : 2 ≤ w) {sort : List IntResult → List IntResult} (hs : SortContractInt sort)
    (cp : CopyFn) (tok : Tokenizer) (name : Str) (rs : List DocRequest) {tokens : List Str}
    (h : tokens.length * rs.length < 2 ^ (w - 1)) :
    RightHits w sort tokens ((buildIndex tok name rs).indexer cp) :=
  rightHits_of hw hs ((countable_memory cp tok name rs tokens w).2 fun _ _ =>
    Nat.lt_of_le_of_lt (occurrences_mul_le tok rs tokens _) h)

/-- One ID that is put `n` times, and a query that has a word of it `m` times.  The count is `m * n`.  If that is
too much for an `int` then the search finds nothing, although every document of the index matches. -/
theorem C102_nothing_found {w n m : Nat} (hw : 2 ≤ w) (hm : m < 2 ^ (w - 1)) (h : 2 ^ (w - 1) ≤ m * n) (h' : m * n < 2 ^ w)
    (sort : List IntResult → List IntResult) (hs : SortContractInt sort)
    (sort' : List SearchResult → List SearchResult) (hs' : SortContract sort')
    (cp : CopyFn) (tok : Tokenizer) (name : Str) (r : DocRequest) (t : Str) (hr : hasToken tok r t = true) :
    hitsSearchInt w sort (List.replicate m t) ((buildIndex tok name (List.replicate n r)).indexer cp) = some [] ∧
    hitsSearch sort' (List.replicate m t) ((buildIndex tok name (List.replicate n r)).indexer cp)
      = some (List.replicate n { document := docOf r, hits := m * n }) ∧
    linearSearch (List.replicate m t) ((buildIndex tok name (List.replicate n r)).indexer cp)
      = some (List.replicate n { document := docOf r, hits := m }) := by
  have hp : 0 < 2 ^ (w - 1) := Nat.pow_pos (by omega)
  have hocc := occurrences_replicate hr n m
  refine ⟨?_, ?_, ?_⟩
  · rw [hitsSearchInt_eq hw]
    have hmet := met_memory cp tok name (List.replicate n r) (List.replicate m t)
    unfold Indexer.met at hmet
    rw [hmet]
    cases ha : ((buildIndex tok name (List.replicate n r)).indexer cp).docsAt
        (List.range ((buildIndex tok name (List.replicate n r)).indexer cp).len) with
    | none =>
      obtain ⟨i, hi, hn⟩ := docsAt_none.1 ha
      rw [List.mem_range, indexer_len] at hi
      rw [indexer_document, List.getElem?_eq_getElem hi] at hn
      cases hn
    | some all =>
      simp only [Option.some.injEq]
      rw [collectedInt_nil]
      · exact List.perm_nil.1 (hs []).1
      · intro d hd
        obtain ⟨i, _, hd⟩ := (docsAt_mem ha d).1 hd
        rw [indexer_document] at hd
        obtain ⟨q, hq, rfl⟩ := Option.map_eq_some_iff.1 hd
        obtain ⟨_, rfl⟩ := List.mem_replicate.1 (List.mem_of_getElem? hq)
        rw [List.countP_eq_length_filter, visited_filter, List.length_map, hocc]
        have := wrap_neg (n := m * n) (by omega) h h'
        omega
  · rw [hitsSearch_eq]
    have he : hitsCollected tok (List.replicate n r) (List.replicate m t)
        = List.replicate n { document := docOf r, hits := m * n } := by
      have hone : hitsEntry tok (List.replicate n r) (List.replicate m t) r
          = some { document := docOf r, hits := m * n } := by
        unfold hitsEntry
        cases ho : occurrences tok (List.replicate n r) (List.replicate m t) (docOf r).hash with
        | nil => rw [ho] at hocc; simp only [List.length_nil] at hocc; omega
        | cons q qs =>
          rw [ho] at hocc
          have hq : q ∈ occurrences tok (List.replicate n r) (List.replicate m t) (docOf r).hash := by rw [ho]; simp
          unfold occurrences at hq
          obtain ⟨_, _, hq⟩ := List.mem_flatMap.1 hq
          obtain ⟨_, rfl⟩ := List.mem_replicate.1 (List.mem_filter.1 hq).1
          simp only [hocc, List.length_replicate]
          rw [if_pos (by omega)]
      unfold hitsCollected
      exact List.filterMap_replicate_of_some hone
    rw [he]
    exact congrArg some (List.eq_replicate_iff.2
      ⟨(hs' _).1.length_eq.trans List.length_replicate, fun b hb => (List.mem_replicate.1 ((hs' _).1.mem_iff.1 hb)).2⟩)
  · rw [linearSearch_eq]
    have hm0 : m ≠ 0 := by rintro rfl; omega
    unfold andResults
    rw [if_neg (by cases m <;> simp_all), List.filter_eq_self.2, List.map_replicate, List.length_replicate]
    intro q hq
    obtain ⟨_, rfl⟩ := List.mem_replicate.1 hq
    unfold hasAll
    rw [List.all_eq_true]
    intro x hx
    obtain ⟨_, rfl⟩ := List.mem_replicate.1 hx
    exact hr

/-- A sorting function that keeps the contract of `sort.Sort`. -/
def intSort (l : List IntResult) : List IntResult := l.mergeSort fun a b => !lessInt b a

theorem not_lessInt_iff (a b : IntResult) : lessInt b a = false ↔
    a.hits > b.hits ∨ (a.hits = b.hits ∧ a.document.id ≤ b.document.id) := by
  unfold lessInt
  by_cases h : b.hits = a.hits
  · simp [h, List.not_lt]
  · simp only [ne_eq, h, not_false_eq_true, if_true, decide_eq_false_iff_not]
    omega

theorem intSort_contract : SortContractInt intSort := by
  intro l
  refine ⟨List.mergeSort_perm _ _, ?_⟩
  have h := List.pairwise_mergeSort (le := fun a b : IntResult => !lessInt b a)
    (fun a b c h1 h2 => by
      simp only [Bool.not_eq_true', not_lessInt_iff] at *
      rcases h1 with h1 | ⟨h1, h1'⟩ <;> rcases h2 with h2 | ⟨h2, h2'⟩
      · left; omega
      · left; omega
      · left; omega
      · right; exact ⟨by omega, List.le_trans h1' h2'⟩)
    (fun a b => by
      simp only [Bool.or_eq_true, Bool.not_eq_true', not_lessInt_iff]
      rcases Int.lt_trichotomy a.hits b.hits with h | h | h
      · right; left; exact h
      · rcases List.le_total a.document.id b.document.id with h' | h'
        · left; right; exact ⟨h, h'⟩
        · right; right; exact ⟨h.symm, h'⟩
      · left; left; exact h) l
  exact h.imp fun h => by simpa using h

/-- The claim is false for every width, 32 and 64 bits included. -/
theorem C102_refuted {w : Nat} (hw : 3 ≤ w) : ¬ C102_claim w := by
  intro h
  have e1 : 2 ^ (w - 1) = 2 * 2 ^ (w - 2) := two_pow_pred (w := w - 1) (by omega)
  have e2 : 2 ^ (w - 2) = 2 * 2 ^ (w - 3) := two_pow_pred (w := w - 2) (by omega)
  have e3 : 0 < 2 ^ (w - 3) := Nat.pow_pos (by omega)
  have hr : hasToken spaceTok (newDocRequest (str "d") (str "java")) (str "java") = true := by decide +kernel
  have ht : (List.replicate 2 (str "java")).length < 2 ^ (w - 1) := by rw [List.length_replicate]; omega
  have h := h intSort plainCopy spaceTok (str "i") (List.replicate (2 ^ (w - 2)) (newDocRequest (str "d") (str "java")))
    (List.replicate 2 (str "java")) intSort_contract (by rw [List.length_replicate]; omega) ht
  have h := (C102_exact (by omega) intSort_contract _ _ _ _ ht).1 h (newDocRequest (str "d") (str "java"))
    (List.mem_replicate.2 ⟨by omega, rfl⟩)
  rw [occurrences_replicate hr] at h
  omega

/-- With 32 bits 50000 copies of one document and a query of 50000 words are enough. -/
theorem C102_refuted_32 (sort : List IntResult → List IntResult) (hs : SortContractInt sort) (cp : CopyFn) (tok : Tokenizer)
    (name : Str) (r : DocRequest) (t : Str) (hr : hasToken tok r t = true) :
    hitsSearchInt 32 sort (List.replicate 50000 t) ((buildIndex tok name (List.replicate 50000 r)).indexer cp) = some [] ∧
    linearSearch (List.replicate 50000 t) ((buildIndex tok name (List.replicate 50000 r)).indexer cp)
      = some (List.replicate 50000 { document := docOf r, hits := 50000 }) :=
  have h := C102_nothing_found (w := 32) (n := 50000) (m := 50000) (by omega) (by omega) (by omega) (by omega) sort hs _
    sampleSort_contract cp tok name r t hr
  ⟨h.1, h.2.2⟩

/-! With 3 bits: two copies and a query of two words make 4 hits, which is -4. -/

example : hitsSearchInt 3 id [str "java", str "java"]
    ((buildIndex spaceTok (str "i") [newDocRequest (str "d") (str "java"), newDocRequest (str "d") (str "java")]).indexer
      plainCopy) = some [] := by decide +kernel

/-- With 4 bits the count is right. -/
example : (hitsSearchInt 4 id [str "java", str "java"]
    ((buildIndex spaceTok (str "i") [newDocRequest (str "d") (str "java"), newDocRequest (str "d") (str "java")]).indexer
      plainCopy)).map (fun l => l.map (·.hits)) = some [4, 4] := by decide +kernel

/-- Overflowing twice over a document is found again, with a count that is too small: 10 hits of 3 bits are 2. -/
example : (hitsSearchInt 3 id [str "java", str "java"]
    ((buildIndex spaceTok (str "i") (List.replicate 5 (newDocRequest (str "d") (str "java")))).indexer
      plainCopy)).map (fun l => l.map (·.hits)) = some [2, 2, 2, 2, 2] := by decide +kernel

/-- The hypotheses of `C102_distinct_ids_partial` and `C102_small_partial`. -/
example : DistinctHashes [newDocRequest (str "d") (str "java"), newDocRequest (str "e") (str "java")] ∧
    [str "java"].length < 2 ^ (32 - 1) ∧ [str "java"].length *
      [newDocRequest (str "d") (str "java"), newDocRequest (str "e") (str "java")].length < 2 ^ (64 - 1) := by
  refine ⟨?_, ?_, ?_⟩ <;> (first | (unfold DistinctHashes; decide +kernel) | decide +kernel)

end Visigoth
