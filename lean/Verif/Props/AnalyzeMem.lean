import Verif.Proofs.AnalyzeMem
/-!
# C86: analyzers are fixed when they are built
-/
namespace Visigoth

/-- The claim: whatever callers do to maps and slices of filters, a tokenizer gives the same tokens for a text. -/
def AnalyzerFixed (writes : List AnalyzeWrite → Prop) : Prop :=
  ∀ (env : AnalyzeEnv) (m : AnalyzeMem) (ws : List AnalyzeWrite) (t : TokenizerRef) (text : Str), writes ws →
    t.tokenize env (m.after ws) text = t.tokenize env m text

/-- False for stop words added, for stop words removed, and for filters replaced. -/
theorem C86_refuted :
    ¬ AnalyzerFixed (fun ws => ∀ w ∈ ws, ∃ p x, w = .addWord p x) ∧
    ¬ AnalyzerFixed (fun ws => ∀ w ∈ ws, ∃ p x, w = .delWord p x) ∧
    ¬ AnalyzerFixed (fun ws => ∀ w ∈ ws, ∃ a k f, w = .setFilter a k f) := by
  refine ⟨fun h => ?_, fun h => ?_, fun h => ?_⟩
  · have := h ⟨id, fun s _ => s⟩ ⟨[[]], [[.stopWords 0]]⟩ [.addWord 0 (str "go")] (.pipeline (.fixed spaceTok) 0 0 1) (str "go") (by simp)
    revert this
    decide +kernel
  · have := h ⟨id, fun s _ => s⟩ ⟨[[(str "go", ())]], [[.stopWords 0]]⟩ [.delWord 0 (str "go")] (.pipeline (.fixed spaceTok) 0 0 1)
      (str "go") (by simp)
    revert this
    decide +kernel
  · have := h ⟨id, fun s _ => s⟩ ⟨[[(str "go", ())]], [[.lowerCase]]⟩ [.setFilter 0 0 (.stopWords 0)] (newPipelineSpread (.fixed spaceTok) 0 0 1)
      (str "go") (by simp)
    revert this
    decide +kernel

/-- C86 if nobody changes a map or an array the tokenizer reads.  Missing: tokenizers whose memory is changed
(`C86_refuted`; what is then found is `C86_mixed`). -/
theorem C86_fixed_partial (env : AnalyzeEnv) (m : AnalyzeMem) (t : TokenizerRef) (ws : List AnalyzeWrite)
    (h : ∀ w ∈ ws, ¬ w.touches m t) (text : Str) : t.tokenize env (m.after ws) text = t.tokenize env m text := by
  rw [tokenize_after h]

theorem tokenize_grown {env : AnalyzeEnv} {m : AnalyzeMem} (fs : List FilterRef) : ∀ {t : TokenizerRef},
    (∀ a, t.readsArray a → a < m.arrays.length) → t.tokenize env { m with arrays := m.arrays ++ [fs] } = t.tokenize env m := by
  intro t
  induction t with
  | fixed t => exact fun _ => rfl
  | pipeline t arr off len ih =>
    intro h
    have ha := h arr (.inl rfl)
    simp only [TokenizerRef.tokenize, ih fun a hr => h a (.inr hr), AnalyzeMem.filters, List.getElem?_append_left ha]
    congr 2

/-- A pipeline that is given its filters one by one applies these, and has them in an array nobody else has: no
assignment to a slice of filters there was before changes it. -/
theorem C86_arguments (env : AnalyzeEnv) (m : AnalyzeMem) (t : TokenizerRef) (ht : ∀ a, t.readsArray a → a < m.arrays.length)
    (fs : List FilterRef) :
    ((newPipelineArgs m t fs).1.tokenize env (newPipelineArgs m t fs).2
      = (newTokenizationPipeline (t.tokenize env m) (fs.map (FilterRef.filter env m))).tokenize) ∧
    ∀ a k f, a < m.arrays.length → ¬ t.readsArray a →
      ¬ (AnalyzeWrite.setFilter a k f).touches (newPipelineArgs m t fs).2 (newPipelineArgs m t fs).1 := by
  constructor
  · simp only [newPipelineArgs, TokenizerRef.tokenize, tokenize_grown fs ht, AnalyzeMem.filters, List.getElem?_concat_length,
      Option.getD_some, List.drop_zero, List.take_length]
    congr 2
  · rintro a k f ha hr (⟨rfl, -⟩ | h)
    · exact Nat.lt_irrefl _ ha
    · exact hr (readsArray_of_cell h)

/-- A pipeline that is given a slice applies, at every call, the filters that are in the slice then; an assignment to
an element of the slice replaces that filter, and one to any other element of the array changes nothing. -/
theorem C86_slice (env : AnalyzeEnv) (m : AnalyzeMem) (t : TokenizerRef) (arr off len : Nat) (k : Nat) (f : FilterRef)
    (ht : ¬ t.readsCell arr k) :
    ((newPipelineSpread t arr off len).tokenize env m
      = (newTokenizationPipeline (t.tokenize env m) ((m.filters arr off len).map (FilterRef.filter env m))).tokenize) ∧
    (off ≤ k → (newPipelineSpread t arr off len).tokenize env (m.after [.setFilter arr k f])
      = (newTokenizationPipeline (t.tokenize env m) (((m.filters arr off len).set (k - off) f).map (FilterRef.filter env m))).tokenize) ∧
    (¬ (off ≤ k ∧ k < off + len) → (newPipelineSpread t arr off len).tokenize env (m.after [.setFilter arr k f])
      = (newPipelineSpread t arr off len).tokenize env m) := by
  have h1 : t.tokenize env (m.after [.setFilter arr k f]) = t.tokenize env m :=
    tokenize_after fun w hw => by rw [List.mem_singleton.1 hw]; exact ht
  refine ⟨rfl, fun hk => ?_, fun hk => ?_⟩
  · show (newTokenizationPipeline (t.tokenize env (m.after [.setFilter arr k f]))
      ((((AnalyzeWrite.setFilter arr k f).apply m).filters arr off len).map _)).tokenize = _
    rw [h1, filters_setFilter_in hk]
    congr 2
  · show (newTokenizationPipeline (t.tokenize env (m.after [.setFilter arr k f]))
      ((((AnalyzeWrite.setFilter arr k f).apply m).filters arr off len).map _)).tokenize = _
    rw [h1, filters_setFilter fun h => hk h.2]
    congr 2

/-- Concrete case: a pipeline with the second and third of three filters, and an assignment to each of the three. -/
example : let m : AnalyzeMem := ⟨[[(str "de", ())], [(str "go", ())]], [[.lowerCase, .lowerCase, .stopWords 0]]⟩
    let t := newPipelineSpread (.fixed spaceTok) 0 1 2
    let e : AnalyzeEnv := ⟨id, fun s _ => s⟩
    (t.tokenize e m (str "curso de go"), t.tokenize e (m.after [.setFilter 0 0 (.stopWords 1)]) (str "curso de go"),
      t.tokenize e (m.after [.setFilter 0 1 (.stopWords 1)]) (str "curso de go"),
      t.tokenize e (m.after [.setFilter 0 2 (.stopWords 1)]) (str "curso de go"))
    = ([str "curso", str "go"], [str "curso", str "go"], [str "curso"], [str "curso", str "de"]) := by decide +kernel

/-- An index whose tokenizer answers differently at each call: `LinearSearch` finds exactly the documents that had all
the query tokens when they were put. -/
theorem C86_mixed (cp : CopyFn) (name : Str) (h : List (Tokenizer × DocRequest)) (tok : Tokenizer) (payload : Str) :
    (buildMixed name h).search cp tok payload linearSearch = some (mixedResults h (tok payload)) := by
  rw [search_runs_engine]
  exact linearSearch_mixed cp name h (tok payload)

/-- `HitsSearch` finds the same documents, those with the most hits first and otherwise by ID, if the IDs have different
hashes. -/
theorem C86_mixed_hits (sort : List SearchResult → List SearchResult) (hs : SortContract sort) (cp : CopyFn) (name : Str)
    (h : List (Tokenizer × DocRequest)) (hd : DistinctHashes (h.map (·.2))) (tok : Tokenizer) (payload : Str) :
    ∃ l, (buildMixed name h).search cp tok payload (hitsSearch sort) = some l ∧ l.Perm (mixedResults h (tok payload)) ∧
      l.Pairwise fun a b => a.hits > b.hits ∨ (a.hits = b.hits ∧ a.document.id ≤ b.document.id) := by
  rw [search_runs_engine, buildMixed_eq]
  refine ⟨_, hitsSearch_eq sort cp _ name _ _, ?_, (hs _).2.imp fun h => (not_less_iff _ _).1 h⟩
  rw [hitsCollected_distinct _ _ (distinct_mixed hd), ← andResults_mixed]
  exact (hs _).1

/-- Concrete case: two tokenizers, IDs with different hashes; the query "go" has the first document only. -/
example : let h := [(spaceTok, newDocRequest (str "b") (str "curso go")), (fun _ => [str "java"], newDocRequest (str "a") (str "curso go"))]
    DistinctHashes (h.map (·.2)) ∧ (mixedResults h [str "go"]).map (·.document.name) = [str "b"] := by
  refine ⟨?_, by decide +kernel⟩
  unfold DistinctHashes
  decide +kernel

/-- Stop words that are added take tokens away and never bring new ones. -/
theorem C86_adding_words (env : AnalyzeEnv) (m : AnalyzeMem) (t : TokenizerRef) (ht : t.ownFilters m) (ws : List AnalyzeWrite)
    (hw : ∀ w ∈ ws, ∃ p x, w = .addWord p x) (text : Str) :
    (t.tokenize env (m.after ws) text).Sublist (t.tokenize env m text) :=
  tokenize_more (addWords_more hw) ht text

/-- So a document put before stop words were added is still found with its own statement, unless nothing is left of it. -/
theorem C86_still_found (env : AnalyzeEnv) (cp : CopyFn) (name : Str) (m : AnalyzeMem) (t : TokenizerRef) (ht : t.ownFilters m)
    (ws : List AnalyzeWrite) (hw : ∀ w ∈ ws, ∃ p x, w = .addWord p x) (h : List (Tokenizer × DocRequest)) (r : DocRequest)
    (hr : (t.tokenize env m, r) ∈ h) (hne : t.tokenize env (m.after ws) r.statement ≠ []) :
    ∃ l, (buildMixed name h).search cp (t.tokenize env (m.after ws)) r.statement linearSearch = some l ∧
      ∃ e ∈ l, e.document = { name := r.name, content := r.content } := by
  refine ⟨_, C86_mixed cp name h _ _, ?_⟩
  rw [mixedResults, if_neg hne]
  refine ⟨_, List.mem_map_of_mem (List.mem_filter.2 ⟨hr, ?_⟩), rfl⟩
  rw [List.all_eq_true]
  exact fun x hx => decide_eq_true ((C86_adding_words env m t ht ws hw r.statement).subset hx)

/-- If a stop word is removed, a document put before is not found with its own statement. -/
theorem C86_lost : ∃ (env : AnalyzeEnv) (m : AnalyzeMem) (t : TokenizerRef) (p : Nat) (x : Str) (r : DocRequest),
    t.tokenize env m r.statement ≠ [] ∧ ∀ cp name,
      (buildMixed name [(t.tokenize env m, r)]).search cp (t.tokenize env m) r.statement linearSearch ≠ some [] ∧
      (buildMixed name [(t.tokenize env m, r)]).search cp (t.tokenize env (m.after [.delWord p x])) r.statement linearSearch = some [] := by
  refine ⟨⟨id, fun s _ => s⟩, ⟨[[(str "de", ())]], [[.stopWords 0]]⟩, .pipeline (.fixed spaceTok) 0 0 1, 0, str "de",
    newDocRequest (str "1") (str "curso de go"), by decide +kernel, fun cp name => ⟨?_, ?_⟩⟩
  · rw [C86_mixed]
    decide +kernel
  · rw [C86_mixed]
    decide +kernel

/-- Concrete cases: a nested pipeline; a write to another map; a word added. -/
example : let m : AnalyzeMem := ⟨[[(str "de", ())], []], [[.lowerCase], [.stopWords 0]]⟩
    let t : TokenizerRef := .pipeline (.pipeline (.fixed spaceTok) 0 0 1) 1 0 1
    ¬ (AnalyzeWrite.addWord 1 (str "go")).touches m t ∧ (AnalyzeWrite.addWord 0 (str "go")).touches m t ∧
    (t.tokenize ⟨id, fun s _ => s⟩ m (str "curso de go"), t.tokenize ⟨id, fun s _ => s⟩ (m.after [.addWord 0 (str "go")]) (str "curso de go"))
      = ([str "curso", str "go"], [str "curso"]) := by
  refine ⟨?_, ?_, by decide +kernel⟩ <;>
    simp [AnalyzeWrite.touches, TokenizerRef.readsWords, AnalyzeMem.filters]

end Visigoth
