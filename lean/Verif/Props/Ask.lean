import Verif.Proofs.Ask
import Verif.Props.Search
/-!
# C69, C70, C71: what the engines ask of an index, and the documented costs

`hitsSteps`, `linearAsked`, `matchPositions` and `postings` are defined in `Spec/Ask.lean` from the list of
requests alone.
-/
namespace Visigoth

/-! ## C69 -/

/-- Recording the steps changes no result, on any index. -/
theorem C69_same_results (sort : List SearchResult → List SearchResult) (tokens : List Str) (ix : Indexer) :
    (linearSearchA tokens ix).2 = linearSearch tokens ix ∧
    (hitsSearchA sort tokens ix).2 = hitsSearch sort tokens ix ∧
    (noopZeroSearchA tokens ix).2 = noopZeroSearch tokens ix ∧
    (noopAllSearchA tokens ix).2 = noopAllSearch tokens ix :=
  ⟨linearSearchA_val tokens ix, hitsSearchA_val sort tokens ix, rfl, noopAllLoopA_val ix _⟩

/-- `HitsSearch`: `Indexed` for every query token in turn, each followed by `Document` for the documents
containing it; then `Len` and `Document` for every document of the index; `Len` once more. -/
theorem C69_hits_steps (sort : List SearchResult → List SearchResult) (cp : CopyFn) (tok : Tokenizer) (name : Str)
    (rs : List DocRequest) (tokens : List Str) :
    (hitsSearchA sort tokens ((buildIndex tok name rs).indexer cp)).1 = hitsSteps tok rs tokens :=
  hitsSearchA_steps sort (indexer_indexed cp tok name rs) (indexer_len cp tok name rs)
    (indexer_document cp tok name rs) tokens

/-- Whether `Indexed` returns nil for a token no document contains. -/
def CopyFn.nilEmpty (cp : CopyFn) : Bool := (cp.copy none).isNone

theorem indexed_nil (cp : CopyFn) (tok : Tokenizer) (name : Str) (rs : List DocRequest) (t : Str)
    (h : positions tok rs t = []) :
    ((buildIndex tok name rs).indexer cp).indexed t = none ↔ cp.nilEmpty = true := by
  simp only [MemoryIndex.indexer, MemoryIndex.indexed, buildIndex_inverted_get, h, if_true, CopyFn.nilEmpty,
    Option.isNone_iff_eq_none]

/-- `LinearSearch`: first `Indexed` calls, for the tokens `linearAsked`, with iterations of `intersection`
among them; then `Document` for exactly the documents containing all query tokens, in order, once each;
`Len` never. -/
theorem C69_linear_steps (cp : CopyFn) (tok : Tokenizer) (name : Str) (rs : List DocRequest) (t : Str) (ts : List Str) :
    ∃ w, (linearSearchA (t :: ts) ((buildIndex tok name rs).indexer cp)).1
        = w ++ (matchPositions tok rs (t :: ts)).map .document ∧
      w.filterMap Ask.token? = linearAsked cp.nilEmpty tok rs (t :: ts) ∧
      ∀ a ∈ w, (∃ u, a = .indexed u) ∨ a = .compare := by
  obtain ⟨w, h1, h2⟩ := linearSearchA_steps (indexer_indexed cp tok name rs) (indexer_document cp tok name rs)
    cp.nilEmpty (fun t h => indexed_nil cp tok name rs t h) t ts
  exact ⟨w, h1, h2.asks, h2.only⟩

/-- An empty query asks nothing, nor does `NoopZeroSearch`; `NoopAllSearch` asks for every document. -/
theorem C69_other_steps (cp : CopyFn) (tok : Tokenizer) (name : Str) (rs : List DocRequest) (tokens : List Str) :
    (linearSearchA [] ((buildIndex tok name rs).indexer cp)).1 = [] ∧
    (noopZeroSearchA tokens ((buildIndex tok name rs).indexer cp)).1 = [] ∧
    (noopAllSearchA tokens ((buildIndex tok name rs).indexer cp)).1
      = (List.range rs.length).flatMap (fun i => [.len, .document i]) ++ [.len] := by
  refine ⟨rfl, rfl, ?_⟩
  unfold noopAllSearchA overPositions
  rw [indexer_len]
  exact noopAllLoopA_steps (indexer_document cp tok name rs) _ fun i hi => List.mem_range.1 hi

example : (hitsSearchA id [str "java", str "go"] ((buildIndex spaceTok [] sampleRequests).indexer plainCopy)).1 =
    [.indexed (str "java"), .document 0, .document 1, .indexed (str "go"), .document 1, .document 2,
     .len, .document 0, .len, .document 1, .len, .document 2, .len] := by decide +kernel

example : (linearSearchA [str "java", str "go"] ((buildIndex spaceTok [] sampleRequests).indexer plainCopy)).1 =
    [.indexed (str "java"), .indexed (str "go"), .compare, .compare, .document 1] := by decide +kernel

/-! ## C70 -/

/-- Full statement of C70, time: a constant bounds the number of steps of `HitsSearch` by the documented
T × D + R log R.  T × D is the number of query tokens plus the number of pairs of a query token and a
document containing it; R is the number of results. -/
def HitsTime (c : Nat) : Prop :=
  ∀ (sort : List SearchResult → List SearchResult), SortContract sort → ∀ (cp : CopyFn) (tok : Tokenizer)
    (rs : List DocRequest) (tokens : List Str) (l : List SearchResult),
    hitsSearch sort tokens ((buildIndex tok [] rs).indexer cp) = some l →
    (hitsSearchA sort tokens ((buildIndex tok [] rs).indexer cp)).1.length
      ≤ c * (tokens.length + postings tok rs tokens + l.length * (Nat.log2 l.length + 1) + 1)

/-- The number of steps depends on the number of documents in the index, whether they match or not. -/
theorem C70_steps_exact (sort : List SearchResult → List SearchResult) (cp : CopyFn) (tok : Tokenizer) (name : Str)
    (rs : List DocRequest) (tokens : List Str) :
    (hitsSearchA sort tokens ((buildIndex tok name rs).indexer cp)).1.length
      = tokens.length + postings tok rs tokens + 2 * rs.length + 1 := by
  rw [C69_hits_steps, hitsSteps_length]

/-- False whatever the constant: a word no document contains is looked up in an index of `c + 1`
documents. -/
theorem C70_time_refuted (c : Nat) : ¬ HitsTime c := by
  intro h
  have hc : hitsCollected (fun _ => []) (List.replicate (c + 1) (newDocRequest [] [])) [str "go"] = [] := by
    unfold hitsCollected
    rw [List.filterMap_eq_nil_iff]
    intro r _
    unfold hitsEntry occurrences
    simp [hasToken]
  have hp : postings (fun _ => []) (List.replicate (c + 1) (newDocRequest [] [])) [str "go"] = 0 := by
    simp [postings, hasToken]
  have := h sampleSort sampleSort_contract plainCopy (fun _ => []) (List.replicate (c + 1) (newDocRequest [] []))
    [str "go"] _ (hitsSearch_eq _ _ _ _ _ _)
  rw [C70_steps_exact, hc, hp, List.length_replicate, (sampleSort_contract []).1.length_eq] at this
  simp at this
  omega

/-- C70, time, when every document of the index contains some query token.  Missing: the other indexes,
where the documents without any query token are visited as well (`C70_steps_exact`). -/
theorem C70_time_partial (sort : List SearchResult → List SearchResult) (cp : CopyFn) (tok : Tokenizer)
    (rs : List DocRequest) (tokens : List Str) (h : ∀ r ∈ rs, ∃ t ∈ tokens, hasToken tok r t = true) :
    (hitsSearchA sort tokens ((buildIndex tok [] rs).indexer cp)).1.length
      ≤ 3 * (tokens.length + postings tok rs tokens + 1) := by
  rw [C70_steps_exact]
  have := length_le_postings tokens h
  omega

example : ∀ r ∈ sampleRequests, ∃ t ∈ [str "java", str "go"], hasToken spaceTok r t = true := by decide +kernel

/-- Full statement of C70, space: a constant bounds the number of entries of the table of `HitsSearch` by
the number of results. -/
def HitsSpace (c : Nat) : Prop :=
  ∀ (sort : List SearchResult → List SearchResult), SortContract sort → ∀ (cp : CopyFn) (tok : Tokenizer)
    (rs : List DocRequest) (tokens : List Str) (l : List SearchResult) (m : GoMap HashKey SearchResult),
    hitsSearch sort tokens ((buildIndex tok [] rs).indexer cp) = some l →
    hitsPhase1 ((buildIndex tok [] rs).indexer cp) tokens [] = some m → m.length ≤ c * l.length

/-- The table has one entry for every hash of a document that contains at least one query token. -/
theorem C70_table_exact (cp : CopyFn) (tok : Tokenizer) (name : Str) (rs : List DocRequest) (tokens : List Str) :
    ∃ m, hitsPhase1 ((buildIndex tok name rs).indexer cp) tokens [] = some m ∧ m.keys.Nodup ∧
      m.length = m.keys.length ∧
      ∀ h, h ∈ m.keys ↔ ∃ r ∈ rs, (docOf r).hash = h ∧ ∃ t ∈ tokens, t ∈ tok r.statement := by
  obtain ⟨m, h1, h2, h3⟩ := hitsPhase1_table (indexer_indexed cp tok name rs) (indexer_document cp tok name rs) tokens
  refine ⟨m, h1, h2, by simp [GoMap.keys], fun h => ?_⟩
  rw [h3]
  simp [hasToken]

/-- False whatever the constant: no document contains both words of the query, but the table has an entry
for every document that contains one of them. -/
theorem C70_space_refuted (c : Nat) : ¬ HitsSpace c := by
  intro h
  have hc : hitsCollected spaceTok [newDocRequest (str "d") (str "go")] [str "go", str "java"] = [] := by decide +kernel
  have := h sampleSort sampleSort_contract plainCopy spaceTok [newDocRequest (str "d") (str "go")]
    [str "go", str "java"] _
    [(({ name := str "d", content := str "go" } : Doc).hash, { document := { name := str "d", content := str "go" }, hits := 1 })]
    (hitsSearch_eq _ _ _ _ _ _) (by decide +kernel)
  rw [hc, (sampleSort_contract []).1.length_eq] at this
  simp at this

/-- C70, space, for a query of one token and distinct ID hashes.  Missing: queries of several tokens, where
documents containing some but not all of them have entries too (`C70_table_exact`), and IDs with equal
hashes, which share an entry. -/
theorem C70_space_partial (sort : List SearchResult → List SearchResult) (hs : SortContract sort) (cp : CopyFn)
    (tok : Tokenizer) (rs : List DocRequest) (hd : DistinctHashes rs) (t : Str) (l : List SearchResult)
    (m : GoMap HashKey SearchResult) (hl : hitsSearch sort [t] ((buildIndex tok [] rs).indexer cp) = some l)
    (hm : hitsPhase1 ((buildIndex tok [] rs).indexer cp) [t] [] = some m) : m.length = l.length := by
  rw [hitsSearch_eq] at hl
  cases hl
  rw [(hs _).1.length_eq, hitsCollected_distinct tok rs hd]
  obtain ⟨m', h1, h2, h3, h4⟩ := C70_table_exact cp tok [] rs [t]
  rw [hm] at h1
  cases h1
  rw [h3]
  have hperm : m.keys.Perm ((rs.filter (hasAll tok [t])).map fun r => (docOf r).hash) := by
    refine (List.perm_ext_iff_of_nodup h2 ?_).2 ?_
    · rw [List.nodup_iff_pairwise_ne, List.pairwise_map]
      exact List.Pairwise.sublist List.filter_sublist hd
    · intro k
      rw [h4]
      simp only [List.mem_map, List.mem_filter, hasAll, hasToken, List.all_cons, List.all_nil, Bool.and_true,
        decide_eq_true_eq, List.mem_singleton, exists_eq_left]
      constructor
      · rintro ⟨r, hr, he, ht⟩; exact ⟨r, ⟨hr, ht⟩, he⟩
      · rintro ⟨r, ⟨hr, ht⟩, he⟩; exact ⟨r, hr, he, ht⟩
  rw [hperm.length_eq]
  simp [andResults]

/-! ## C71 -/

/-- The loop of `intersection` makes at most `len(a) + len(b)` iterations; allowing it more changes
nothing. -/
theorem C71_intersection_iterations (a b : List Nat) (ix : Indexer) (n : Nat) (hn : a.length + b.length ≤ n) :
    ∃ k, k ≤ a.length + b.length ∧ interLoopA n a b ix = (List.replicate k .compare, some (intersection a b)) := by
  obtain ⟨k, hk, h⟩ := interLoopA_eq ix n a b
  exact ⟨k, hk, by rw [h, interLoop_fuel n a b hn]⟩

/-- The tokens `LinearSearch` asks for, in the order of the `Indexed` calls. -/
def asksFor (tok : Tokenizer) (rs : List DocRequest) (cp : CopyFn) (tokens : List Str) : List Str :=
  (linearSearchA tokens ((buildIndex tok [] rs).indexer cp)).1.filterMap Ask.token?

theorem asksFor_eq (tok : Tokenizer) (rs : List DocRequest) (cp : CopyFn) (tokens : List Str) :
    asksFor tok rs cp tokens = linearAsked cp.nilEmpty tok rs tokens := by
  cases tokens with
  | nil => rfl
  | cons t ts =>
    obtain ⟨w, h1, h2, _⟩ := C69_linear_steps cp tok [] rs t ts
    have hd : ∀ l : List Nat, (l.map Ask.document).filterMap Ask.token? = [] := by
      intro l
      rw [List.filterMap_map, List.filterMap_eq_nil_iff]
      intro i _
      rfl
    unfold asksFor
    rw [h1, List.filterMap_append, hd, List.append_nil, h2]

/-- The steps of `LinearSearch` are within the documented T × D + I, counting only the tokens it asks
for. -/
theorem C71_linear_time (cp : CopyFn) (tok : Tokenizer) (rs : List DocRequest) (tokens : List Str) :
    ∃ l, linearSearch tokens ((buildIndex tok [] rs).indexer cp) = some l ∧
      (linearSearchA tokens ((buildIndex tok [] rs).indexer cp)).1.length
        ≤ (asksFor tok rs cp tokens).length
          + 2 * postings tok rs (asksFor tok rs cp tokens) + l.length := by
  refine ⟨_, linearSearch_eq cp tok [] rs tokens, ?_⟩
  rw [asksFor_eq]
  cases tokens with
  | nil => exact Nat.zero_le _
  | cons t ts =>
    obtain ⟨w, h1, h2⟩ := linearSearchA_steps (indexer_indexed cp tok [] rs) (indexer_document cp tok [] rs)
      cp.nilEmpty (fun t h => indexed_nil cp tok [] rs t h) t ts
    rw [h1, List.length_append, List.length_map]
    have hR : (andResults tok rs (t :: ts)).length = (matchPositions tok rs (t :: ts)).length := by
      rw [matchPositions_eq, positionsWhere_length]
      simp [andResults]
    have hw : w.length = (linearAsked cp.nilEmpty tok rs (t :: ts)).length + w.count .compare := by
      rw [← h2.asks]
      have honly := h2.only
      clear h1 h2
      induction w with
      | nil => rfl
      | cons a w ih =>
        have := ih fun b hb => honly b (by simp [hb])
        rcases honly a (by simp) with ⟨u, rfl⟩ | rfl
        · rw [List.filterMap_cons, List.count_cons]
          simp only [Ask.token?, List.length_cons, this]
          have : ((Ask.indexed u) == Ask.compare) = false := rfl
          simp [this]
          omega
        · rw [List.filterMap_cons, List.count_cons]
          simp only [Ask.token?, List.length_cons, this]
          simp
          omega
    have := h2.iters
    omega

/-- The tokens `LinearSearch` asks for are the first ones of the query. -/
theorem C71_asks_prefix (cp : CopyFn) (tok : Tokenizer) (rs : List DocRequest) (tokens : List Str) :
    asksFor tok rs cp tokens <+: tokens := by
  rw [asksFor_eq]
  cases tokens with
  | nil => exact List.prefix_rfl
  | cons t ts =>
    simp only [linearAsked]
    split
    · exact (List.prefix_cons_inj t).2 (List.nil_prefix)
    · exact (List.prefix_cons_inj t).2 (askedFrom_prefix tok rs ts [t])

/-- With all the tokens asked for, there are at most as many steps as tokens and three times the pairs of a
token and a document containing it. -/
theorem C71_linear_time_all (cp : CopyFn) (tok : Tokenizer) (rs : List DocRequest) (tokens : List Str) :
    (linearSearchA tokens ((buildIndex tok [] rs).indexer cp)).1.length
      ≤ tokens.length + 3 * postings tok rs tokens := by
  obtain ⟨l, h1, h2⟩ := C71_linear_time cp tok rs tokens
  rw [linearSearch_eq] at h1
  cases h1
  have hp : asksFor tok rs cp tokens <+: tokens := C71_asks_prefix cp tok rs tokens
  obtain ⟨rest, hr⟩ := hp
  have e1 : tokens.length = (asksFor tok rs cp tokens).length + rest.length := by
    conv => lhs; rw [← hr]
    rw [List.length_append]
  have e2 : postings tok rs tokens = postings tok rs (asksFor tok rs cp tokens) + postings tok rs rest := by
    conv => lhs; rw [← hr]
    simp [postings]
  have e3 : (andResults tok rs tokens).length ≤ postings tok rs tokens := by
    cases tokens with
    | nil => simp [andResults]
    | cons t ts =>
      rw [postings_cons, positions_length]
      simp only [andResults, reduceCtorEq, if_false, List.length_map]
      have : (rs.filter (hasAll tok (t :: ts))).length ≤ (rs.filter fun r => hasToken tok r t).length := by
        rw [← List.countP_eq_length_filter, ← List.countP_eq_length_filter]
        refine List.countP_mono_left fun r _ h => ?_
        simp only [hasAll, List.all_cons, Bool.and_eq_true] at h
        exact h.1
      omega
  omega

/-- Early termination: after the second token, or a later one, another token is asked for exactly if some
document contains all the tokens up to there. -/
theorem C71_stops_early (cp : CopyFn) (tok : Tokenizer) (rs : List DocRequest) (a b : List Str) (v : Str)
    (ha : 2 ≤ a.length) :
    a ++ [v] <+: asksFor tok rs cp (a ++ v :: b) ↔ ∃ r ∈ rs, ∀ t ∈ a, t ∈ tok r.statement := by
  rw [asksFor_eq]
  have hall : (∃ r ∈ rs, ∀ t ∈ a, t ∈ tok r.statement) ↔ rs.any (hasAll tok a) = true := by
    simp [hasAll, hasToken]
  rw [hall]
  match a, ha with
  | t :: u :: a, _ =>
    simp only [List.cons_append, linearAsked]
    rw [List.prefix_cons_inj]
    have key := askedFrom_goes tok rs (u :: a) [t] b v (by simp)
    simp only [List.cons_append, List.nil_append] at key
    split
    · next h =>
      simp only [List.prefix_nil, reduceCtorEq, false_iff, List.any_eq_true, not_exists, not_and]
      simp only [Bool.and_eq_true, Bool.not_eq_true', List.any_eq_false] at h
      intro r hr hh
      refine h.2 r hr ?_
      simp only [hasAll, List.all_cons, Bool.and_eq_true] at hh
      simp [hasAll, hh.1]
    · exact key

/-- After the first token the search stops only if no document contains it and `Indexed` returned nil. -/
theorem C71_after_the_first (cp : CopyFn) (tok : Tokenizer) (rs : List DocRequest) (b : List Str) (t v : Str) :
    [t, v] <+: asksFor tok rs cp (t :: v :: b) ↔
      cp.copy none ≠ none ∨ ∃ r ∈ rs, t ∈ tok r.statement := by
  rw [asksFor_eq, show cp.copy none ≠ none ↔ cp.nilEmpty = false by unfold CopyFn.nilEmpty; cases cp.copy none <;> simp]
  generalize cp.nilEmpty = nilEmpty
  simp only [linearAsked]
  rw [List.prefix_cons_inj]
  split
  · next h =>
    simp only [Bool.and_eq_true, Bool.not_eq_true', List.any_eq_false] at h
    have : ¬ ∃ r ∈ rs, t ∈ tok r.statement := by
      rintro ⟨r, hr, hh⟩
      exact h.2 r hr (by simp [hasAll, hasToken, hh])
    simp [h.1, this]
  · next h =>
    simp only [askedFrom]
    rw [List.prefix_cons_inj]
    simp only [List.nil_prefix, true_iff]
    cases nilEmpty with
    | false => exact Or.inl rfl
    | true =>
      refine Or.inr ?_
      simpa [hasAll, hasToken] using h

example : asksFor spaceTok sampleRequests plainCopy [str "java", str "zz", str "go"] = [str "java", str "zz"] ∧
    asksFor spaceTok sampleRequests plainCopy [str "zz", str "java", str "go"] = [str "zz"] ∧
    asksFor spaceTok sampleRequests plainCopy [str "java", str "go", str "zz"] = [str "java", str "go", str "zz"] := by
  decide +kernel

end Visigoth
